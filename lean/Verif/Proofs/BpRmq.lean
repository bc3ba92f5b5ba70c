import Verif.Proofs.BpTree
/-!
# The least excess over a range
-/
namespace AC

/-- the words of a block extend the range that has been searched -/
theorem Exc.inWord_extend {ws : List W} {a w : Nat} {s : Exc} (hw : w < ws.length) (hc : s.cur = exW ws (64 * w))
    (ha : a ≤ 64 * w) (hb : Best (exW ws) a (64 * w) s.min s.idx) :
    (Exc.inWord ws[w] (w * 64) s).cur = exW ws (64 * (w + 1)) ∧
    Best (exW ws) a (64 * (w + 1)) (Exc.inWord ws[w] (w * 64) s).min (Exc.inWord ws[w] (w * 64) s).idx := by
  obtain ⟨m, j, h1, h2⟩ := Exc.inWord_spec ws[w] (w * 64) s
  have h3 := h1.shift (e' := exW ws) (s := 64 * w) (by
    intro q _ hq
    rw [exW_word ws w hw q hq, hc])
  have h4 := hb.merge h3 (by omega) (by omega) (by omega)
  rw [h2]
  dsimp only
  rw [Nat.mul_comm w 64]
  refine ⟨?_, h4⟩
  rw [show 64 * (w + 1) = 64 * w + 64 by omega, exW_word ws w hw 64 (Nat.le_refl _), hc]

theorem Exc.inBlock_extend {ws : List W} {a : Nat} : ∀ n w s, w + n ≤ ws.length → s.cur = exW ws (64 * w) → a ≤ 64 * w →
    Best (exW ws) a (64 * w) s.min s.idx →
    ∃ s', Exc.inBlock ws n w s = .ok s' ∧ s'.cur = exW ws (64 * (w + n)) ∧ Best (exW ws) a (64 * (w + n)) s'.min s'.idx := by
  intro n
  induction n with
  | zero => intro w s _ hc _ hb; exact ⟨s, rfl, hc, hb⟩
  | succ n ih =>
      intro w s hl hc ha hb
      obtain ⟨h1, h2⟩ := Exc.inWord_extend (by omega) hc ha hb
      show ∃ s', (do
        let x ← rd ws w
        Exc.inBlock ws n (w + 1) (Exc.inWord x (w * 64) s)) = _ ∧ _
      rw [rd_ok (by omega), M.ok_bind, show w + (n + 1) = w + 1 + n by omega]
      exact ih (w + 1) _ (by omega) h1 (by omega) h2

/-- a word whose upper bits have been set: only the first `n` positions matter -/
theorem Exc.padded {x : W} {n : Nat} (hn : n ≤ 64) (hp : ∀ j, n ≤ j → j < 64 → x.getLsbD j = true) {e0 : Int} {m : Int} {j : Nat}
    (h : Best (fun q => e0 + exc x.getLsbD q) 0 64 m j) : Best (fun q => e0 + exc x.getLsbD q) 0 n m j ∧
    exc x.getLsbD 64 = exc x.getLsbD n + (64 - n) := by
  have hq : ∀ d, n + d ≤ 64 → exc x.getLsbD (n + d) = exc x.getLsbD n + d := by
    intro d
    induction d with
    | zero => intro _; simp
    | succ d ih =>
        intro hd
        rw [show n + (d + 1) = n + d + 1 by omega, exc_succ, ih (by omega), hp (n + d) (by omega) (by omega)]
        simp; omega
  constructor
  · apply h.cut (Nat.zero_le _) hn
    intro q h1 h2
    have := hq (q - n) (by omega)
    rw [show n + (q - n) = q by omega] at this
    omega
  · have := hq (64 - n) (by omega)
    rw [show n + (64 - n) = 64 by omega] at this
    omega

namespace BP

variable {b : BP}

/-- the least excess of the blocks -/
def bme (b : BP) (k : Nat) : Int := bm b.rs.bv.bits b.rs.bv.size k

/-- number of blocks -/
def blocks (b : BP) : Nat := (b.rs.bv.bits.length + 3) / 4

/-- keep the better one -/
def upd (s : Int × Nat) (m : Int) (p : Nat) : Int × Nat := if m < s.1 then (m, p) else s

theorem upd_merge (s : Int × Nat) (m m2 : Int) (p p2 : Nat) :
    upd (upd s m p) m2 p2 = upd s (if m2 < m then m2 else m) (if m2 < m then p2 else p) := by
  unfold upd
  by_cases h1 : m < s.1 <;> by_cases h2 : m2 < m <;> by_cases h3 : m2 < s.1 <;> simp [h1, h2, h3] <;> omega

theorem superLoop_spec (H : b.Rep) (s : Nat) : ∀ n block t, 32 * s ≤ block → block + n < 32 * (s + 1) → block + n < b.blocks →
    ∃ m p, Best b.bme block (block + n) m p ∧
      superLoop b.blockMin (exW b.rs.bv.bits (8192 * s)) (n + 1) block t = .ok (upd t m p) := by
  intro n
  induction n with
  | zero =>
      intro block t h1 h2 h3
      refine ⟨_, _, Best.single _ _, ?_⟩
      have hr : rd b.blockMin block = .ok (b.bme block - exW b.rs.bv.bits (8192 * s)) := by
        apply rd_of_getElem?
        rw [H.blocks, List.getElem?_map, List.getElem?_range (by unfold blocks at h3; omega)]
        simp only [Option.map_some, Option.some.injEq]
        rw [show block / 32 = s by omega]
        rfl
      show (do
        let x ← rd b.blockMin block
        superLoop b.blockMin (exW b.rs.bv.bits (8192 * s)) 0 (block + 1)
          (if exW b.rs.bv.bits (8192 * s) + x < t.1 then (exW b.rs.bv.bits (8192 * s) + x, block) else t)) = _
      rw [hr, M.ok_bind, show exW b.rs.bv.bits (8192 * s) + (b.bme block - exW b.rs.bv.bits (8192 * s)) = b.bme block by omega]
      rfl
  | succ n ih =>
      intro block t h1 h2 h3
      have hr : rd b.blockMin block = .ok (b.bme block - exW b.rs.bv.bits (8192 * s)) := by
        apply rd_of_getElem?
        rw [H.blocks, List.getElem?_map, List.getElem?_range (by unfold blocks at h3; omega)]
        simp only [Option.map_some, Option.some.injEq]
        rw [show block / 32 = s by omega]
        rfl
      obtain ⟨m, p, i1, i2⟩ := ih (block + 1) (upd t (b.bme block) block) (by omega) (by omega) (by omega)
      have hm := (Best.single b.bme block).merge i1 (by omega) (by omega) (by omega)
      rw [show block + 1 + n = block + (n + 1) by omega] at hm
      refine ⟨_, _, hm, ?_⟩
      rw [← upd_merge, ← i2]
      show (do
        let x ← rd b.blockMin block
        superLoop b.blockMin (exW b.rs.bv.bits (8192 * s)) (n + 1) (block + 1)
          (if exW b.rs.bv.bits (8192 * s) + x < t.1 then (exW b.rs.bv.bits (8192 * s) + x, block) else t)) = _
      rw [hr, M.ok_bind, show exW b.rs.bv.bits (8192 * s) + (b.bme block - exW b.rs.bv.bits (8192 * s)) = b.bme block by omega]
      rfl

theorem inSuper_spec (H : b.Rep) {first last : Nat} (h : first < last) (hs : (last - 1) / 32 = first / 32) (hl : 256 * (last - 1) < b.rs.bv.size) (t : Int × Nat) :
    ∃ m p, Best b.bme first (last - 1) m p ∧ b.inSuper first last t = .ok (upd t m p) := by
  have hlen := H.rs.wf
  unfold wordsFor at hlen
  unfold inSuper
  rw [if_neg (by omega), blockExcess_spec H.rs (by omega) H.small, M.ok_bind]
  obtain ⟨m, p, h1, h2⟩ := superLoop_spec H (first / 32) (last - 1 - first) first t (by omega) (by omega) (by unfold blocks; omega)
  rw [show first + (last - 1 - first) = last - 1 by omega] at h1
  refine ⟨m, p, h1, ?_⟩
  rw [show 256 * (first / 32 * 32) = 8192 * (first / 32) by omega, show last - first = last - 1 - first + 1 by omega]
  exact h2

theorem Best.lift {e f : Nat → Int} {w c lo hi : Nat} {m : Int} {p : Nat} {m' : Int} {q : Nat} (h : Best f lo hi m p)
    (h' : Best e (c * p) (c * p + w) m' q)
    (hf : ∀ k, lo ≤ k → k ≤ hi → (∀ x, c * k ≤ x → x ≤ c * k + w → f k ≤ e x) ∧ ∃ x, c * k ≤ x ∧ x ≤ c * k + w ∧ f k = e x)
    (hcw : 0 < c) (hw : w ≤ c) (hw2 : c ≤ w + 1) : m' = m ∧ Best e (c * lo) (c * hi + w) m q := by
  have hm : m' = m := by
    obtain ⟨g1, x, g2, g3, g4⟩ := hf p h.lo_le h.le_hi
    have a := g1 q h'.lo_le h'.le_hi
    have d := h'.le x g2 g3
    have v1 := h.val
    have v2 := h'.val
    omega
  subst hm
  have l1 := Nat.mul_le_mul_left c h.lo_le
  have l2 := Nat.mul_le_mul_left c h.le_hi
  have k1 := h'.lo_le
  have k2 := h'.le_hi
  refine ⟨rfl, by omega, by omega, h'.val, ?_, ?_⟩
  · intro x h1 h2
    have hx : ∃ k, lo ≤ k ∧ k ≤ hi ∧ c * k ≤ x ∧ x ≤ c * k + w := by
      by_cases hh : x / c ≤ hi
      · refine ⟨x / c, (Nat.le_div_iff_mul_le hcw).mpr (by rw [Nat.mul_comm]; exact h1), hh, Nat.mul_div_le x c, ?_⟩
        have := Nat.lt_mul_div_succ x hcw
        rw [Nat.mul_add, Nat.mul_one] at this
        omega
      · refine ⟨hi, by have := h.lo_le; have := h.le_hi; omega, Nat.le_refl _, ?_, h2⟩
        have : c * hi ≤ c * (x / c) := Nat.mul_le_mul_left c (by omega)
        have := Nat.mul_div_le x c
        omega
    obtain ⟨k, a1, a2, a3, a4⟩ := hx
    have := (hf k a1 a2).1 x a3 a4
    have := h.le k a1 a2
    omega
  · intro x h1 h2
    by_cases hx : c * p ≤ x
    · exact h'.left x hx h2
    · have hk : x / c < p := (Nat.div_lt_iff_lt_mul hcw).mpr (by rw [Nat.mul_comm]; omega)
      have hlo : lo ≤ x / c := (Nat.le_div_iff_mul_le hcw).mpr (by rw [Nat.mul_comm]; exact h1)
      have := h.left (x / c) hlo hk
      have h5 := Nat.lt_mul_div_succ x hcw
      rw [Nat.mul_add, Nat.mul_one] at h5
      have := (hf (x / c) hlo (by have := h.le_hi; omega)).1 x (Nat.mul_div_le x c) (by omega)
      omega

theorem bme_spec {k : Nat} (hk : 256 * (k + 1) ≤ b.rs.bv.size) :
    (∀ x, 256 * k ≤ x → x ≤ 256 * k + 256 → b.bme k ≤ exW b.rs.bv.bits x) ∧
    ∃ x, 256 * k ≤ x ∧ x ≤ 256 * k + 256 ∧ b.bme k = exW b.rs.bv.bits x := by
  unfold bme
  rw [bm_eq, show min (256 * (k + 1)) b.rs.bv.size - 256 * k = 256 by omega]
  exact ⟨minOver_le _ _ _, minOver_mem _ _ _⟩

theorem sme_spec {k : Nat} (hk : 8192 * (k + 1) ≤ b.rs.bv.size) :
    (∀ x, 32 * k ≤ x → x ≤ 32 * k + 31 → b.sme k ≤ b.bme x) ∧ ∃ x, 32 * k ≤ x ∧ x ≤ 32 * k + 31 ∧ b.sme k = b.bme x := by
  have h1 : b.sme k = minOver (exW b.rs.bv.bits) (8192 * k) 8192 := by
    unfold sme sm
    rw [show min (8192 * (k + 1)) b.rs.bv.size - 8192 * k = 8192 by omega]
  constructor
  · intro x x1 x2
    obtain ⟨_, y, y1, y2, y3⟩ := bme_spec (b := b) (k := x) (by omega)
    have := minOver_le (exW b.rs.bv.bits) (8192 * k) 8192 y (by omega) (by omega)
    omega
  · obtain ⟨y, y1, y2, y3⟩ := minOver_mem (exW b.rs.bv.bits) (8192 * k) 8192
    obtain ⟨x, x1, x2, x3⟩ : ∃ x, 32 * k ≤ x ∧ x ≤ 32 * k + 31 ∧ 256 * x ≤ y ∧ y ≤ 256 * x + 256 := by
      by_cases hy : y = 8192 * k + 8192
      · exact ⟨32 * k + 31, by omega, by omega, by omega, by omega⟩
      · exact ⟨y / 256, by omega, by omega, by omega, by omega⟩
    refine ⟨x, x1, x2, ?_⟩
    obtain ⟨g, z, z1, z2, z3⟩ := bme_spec (b := b) (k := x) (by omega)
    have a := g y x3.1 x3.2
    have c := minOver_le (exW b.rs.bv.bits) (8192 * k) 8192 z (by omega) (by omega)
    omega

/-- the search among complete blocks -/
theorem inBlocks_spec (H : b.Rep) {ba bb : Nat} (hab : ba + 1 < bb) (hl : 256 * bb ≤ b.rs.bv.size) (m0 : Int) :
    ∃ m p, Best b.bme (ba + 1) (bb - 1) m p ∧ b.inBlocks m0 ba bb = .ok (upd (m0, 2 ^ 32 - 1) m p) := by
  have hlen := H.rs.wf
  unfold wordsFor at hlen
  unfold inBlocks
  dsimp only
  by_cases hs : (ba + 1) / 32 = bb / 32
  · rw [if_pos hs]
    exact inSuper_spec H hab (by omega) (by omega) _
  · rw [if_neg hs]
    generalize hz : ((m0, 2 ^ 32 - 1) : Int × Nat) = z
    have hz1 : z.1 = m0 := by rw [← hz]
    obtain ⟨sa, hsa⟩ : ∃ sa, (ba + 1) / 32 = sa := ⟨_, rfl⟩
    obtain ⟨sb, hsb⟩ : ∃ sb, bb / 32 = sb := ⟨_, rfl⟩
    rw [hsa, hsb]
    obtain ⟨m1, p1, a1, a2⟩ := inSuper_spec H (first := ba + 1) (last := (sa + 1) * 32) (by omega) (by omega) (by omega) z
    rw [a2, M.ok_bind]
    -- the complete superblocks
    have mid : ∃ m p s, Best b.bme (ba + 1) (32 * sb - 1) m p ∧ s = upd z m p ∧
        (∀ f : Int × Nat → M (Int × Nat), (do
          let t ← b.minSuper (sa + 1) sb z
          let s ← inSuperIf (t.1 < m0) b (t.2 * 32) ((t.2 + 1) * 32) (upd z m1 p1)
          f s) = f s) := by
      by_cases he : sa + 1 = sb
      · refine ⟨m1, p1, _, ?_, rfl, ?_⟩
        · rw [show 32 * sb - 1 = (sa + 1) * 32 - 1 by omega]; exact a1
        · intro f
          have : b.minSuper (sa + 1) sb z = .ok z := by unfold minSuper; rw [if_pos he]
          rw [this, M.ok_bind]
          have : inSuperIf (decide (z.1 < m0)) b (z.2 * 32) ((z.2 + 1) * 32) (upd z m1 p1) = .ok (upd z m1 p1) := by
            unfold inSuperIf
            rw [if_neg (by simp [hz1])]
          rw [this, M.ok_bind]
      · obtain ⟨m, p, c1, c2⟩ := minSuper_spec H (first := sa + 1) (last := sb) (by omega) (by unfold supers; omega) z
        have cp1 := c1.lo_le
        have cp2 := c1.le_hi
        obtain ⟨m2, p2, d1, d2⟩ := inSuper_spec H (first := p * 32) (last := (p + 1) * 32) (by omega) (by omega) (by omega) (upd z m1 p1)
        have hd : Best b.bme (32 * p) (32 * p + 31) m2 p2 := by
          rw [show 32 * p = p * 32 by omega, show p * 32 + 31 = (p + 1) * 32 - 1 by omega]; exact d1
        obtain ⟨l1, l2⟩ := Best.lift (w := 31) (c := 32) c1 hd (fun k k1 k2 => sme_spec (by omega)) (by omega) (by omega) (by omega)
        subst l1
        have hm := a1.merge l2 (by omega) (by omega) (by omega)
        rw [show 32 * (sb - 1) + 31 = 32 * sb - 1 by omega] at hm
        refine ⟨_, _, _, hm, rfl, ?_⟩
        intro f
        rw [← upd_merge]
        by_cases hlt : m2 < m0
        · have ht : b.minSuper (sa + 1) sb z = .ok (m2, p) := by
            rcases c2 with c2 | c2
            · rw [c2, if_pos (by omega)]
            · exact c2
          rw [ht, M.ok_bind]
          have : inSuperIf (decide ((m2, p).1 < m0)) b ((m2, p).2 * 32) (((m2, p).2 + 1) * 32) (upd z m1 p1) = .ok (upd (upd z m1 p1) m2 p2) := by
            unfold inSuperIf
            rw [if_pos (by simpa using hlt)]
            exact d2
          rw [this, M.ok_bind]
        · have ht : ∃ t : Int × Nat, b.minSuper (sa + 1) sb z = .ok t ∧ ¬ t.1 < m0 := by
            rcases c2 with c2 | c2
            · rw [c2, if_neg (by omega)]; exact ⟨_, rfl, by omega⟩
            · exact ⟨_, c2, hlt⟩
          obtain ⟨t, ht, ht2⟩ := ht
          rw [ht, M.ok_bind]
          have : inSuperIf (decide (t.1 < m0)) b (t.2 * 32) ((t.2 + 1) * 32) (upd z m1 p1) = .ok (upd (upd z m1 p1) m2 p2) := by
            unfold inSuperIf
            rw [if_neg (by simpa using ht2)]
            apply congrArg Except.ok
            unfold upd
            by_cases h1 : m1 < z.1
            · rw [if_pos h1, if_neg (by dsimp only; omega)]
            · rw [if_neg h1, if_neg (by omega)]
          rw [this, M.ok_bind]
    obtain ⟨m, p, s, e1, e2, e3⟩ := mid
    rw [e3]
    by_cases hb : sb * 32 = bb
    · have : b.inSuper (sb * 32) bb s = .ok s := by unfold inSuper; rw [if_pos hb]
      rw [this]
      refine ⟨m, p, ?_, by rw [e2]⟩
      rw [show bb - 1 = 32 * sb - 1 by omega]; exact e1
    · obtain ⟨m3, p3, g1, g2⟩ := inSuper_spec H (first := sb * 32) (last := bb) (by omega) (by omega) (by omega) s
      have hm := e1.merge g1 (by omega) (by omega) (by omega)
      refine ⟨_, _, hm, ?_⟩
      rw [g2, e2, upd_merge]

theorem middle_spec (H : b.Rep) {a wa wb : Nat} {s : Exc} (hab : wa < wb) (hb : 64 * wb < b.rs.bv.size) (ha : a ≤ 64 * (wa + 1))
    (hc : s.cur = exW b.rs.bv.bits (64 * (wa + 1))) (hbest : Best (exW b.rs.bv.bits) a (64 * (wa + 1)) s.min s.idx) :
    ∃ s', b.middle wa wb s = .ok s' ∧ s'.cur = exW b.rs.bv.bits (64 * wb) ∧ Best (exW b.rs.bv.bits) a (64 * wb) s'.min s'.idx := by
  have hlen := H.rs.wf
  unfold wordsFor at hlen
  unfold middle
  dsimp only
  by_cases hs : wa / 4 = wb / 4
  · rw [if_pos hs]
    obtain ⟨s', h1, h2, h3⟩ := Exc.inBlock_extend (ws := b.rs.bv.bits) (wb - (wa + 1)) (wa + 1) s (by omega) hc ha hbest
    rw [show wa + 1 + (wb - (wa + 1)) = wb by omega] at h2 h3
    exact ⟨s', h1, h2, h3⟩
  · rw [if_neg hs]
    obtain ⟨ba, hba⟩ : ∃ ba, wa / 4 = ba := ⟨_, rfl⟩
    obtain ⟨bb, hbb⟩ : ∃ bb, wb / 4 = bb := ⟨_, rfl⟩
    rw [hba, hbb]
    obtain ⟨s1, h1, h2, h3⟩ := Exc.inBlock_extend (ws := b.rs.bv.bits) ((ba + 1) * 4 - (wa + 1)) (wa + 1) s (by omega) hc ha hbest
    rw [show 64 * (wa + 1 + ((ba + 1) * 4 - (wa + 1))) = 256 * (ba + 1) by omega] at h2 h3
    rw [h1, M.ok_bind]
    have mid : ∃ k s2, b.inBlocks s1.min ba bb = .ok k ∧ b.inMinBlock k s1 = .ok s2 ∧ Best (exW b.rs.bv.bits) a (256 * bb) s2.min s2.idx := by
      by_cases he : ba + 1 = bb
      · refine ⟨(s1.min, 2 ^ 32 - 1), s1, ?_, ?_, by rw [← he]; exact h3⟩
        · have hsame : ∀ (x y : Nat) t, x = y → b.inSuper x y t = .ok t := by
            intro x y t hxy; unfold inSuper; rw [if_pos hxy]
          unfold inBlocks
          dsimp only
          rw [if_pos (by rw [he]), hsame _ _ _ he]
        · unfold inMinBlock
          rw [if_neg (by simp)]
      · obtain ⟨m, p, e1, e2⟩ := inBlocks_spec H (ba := ba) (bb := bb) (by omega) (by omega) s1.min
        have p1 := e1.lo_le
        have p2 := e1.le_hi
        have hc2 : blockExcess b.rs p = .ok (exW b.rs.bv.bits (256 * p)) := blockExcess_spec H.rs (by omega) H.small
        obtain ⟨m', q, hq⟩ := Best.exists (exW b.rs.bv.bits) (256 * p) (256 * p + 256) (by omega)
        obtain ⟨l1, l2⟩ := Best.lift (w := 256) (c := 256) e1 hq (fun k k1 k2 => bme_spec (by omega)) (by omega) (by omega) (by omega)
        subst l1
        rw [show 256 * (bb - 1) + 256 = 256 * bb by omega] at l2
        have hm := h3.merge l2 (by omega) (by omega) (by omega)
        unfold upd at e2
        dsimp only at e2
        by_cases hlt : m' < s1.min
        · rw [if_pos hlt] at e2
          rw [if_pos hlt, if_pos hlt] at hm
          -- the scan of block `p`
          have scan : ∀ n w (t : Exc), w + n ≤ b.rs.bv.bits.length → t.cur = exW b.rs.bv.bits (64 * w) → 
              0 < n → ∃ t' m q, Exc.inBlock b.rs.bv.bits n w t = .ok t' ∧ Best (exW b.rs.bv.bits) (64 * w) (64 * (w + n)) m q ∧
                t'.min = (if m < t.min then m else t.min) ∧ t'.idx = (if m < t.min then q else t.idx) := by
            intro n
            induction n with
            | zero => intro w t _ _ h; omega
            | succ n ih =>
                intro w t hl htc _
                have hw : w < b.rs.bv.bits.length := by omega
                obtain ⟨m, j, g1, g2⟩ := Exc.inWord_spec b.rs.bv.bits[w] (w * 64) t
                have g3 := g1.shift (e' := exW b.rs.bv.bits) (s := 64 * w) (by
                  intro q _ hq
                  rw [exW_word _ w hw q hq, htc])
                have step : Exc.inBlock b.rs.bv.bits (n + 1) w t = Exc.inBlock b.rs.bv.bits n (w + 1) (Exc.inWord b.rs.bv.bits[w] (w * 64) t) := by
                  show (do
                    let x ← rd b.rs.bv.bits w
                    Exc.inBlock b.rs.bv.bits n (w + 1) (Exc.inWord x (w * 64) t)) = _
                  rw [rd_ok hw, M.ok_bind]
                rw [step, g2]
                by_cases hn : n = 0
                · subst hn
                  refine ⟨_, m, 64 * w + j, rfl, g3, rfl, ?_⟩
                  dsimp only
                  rw [Nat.mul_comm w 64]
                · obtain ⟨t', m2, q2, i1, i2, i3, i4⟩ := ih (w + 1) ⟨t.cur + exc b.rs.bv.bits[w].getLsbD 64, if m < t.min then m else t.min,
                    if m < t.min then w * 64 + j else t.idx⟩ (by omega) (by
                      dsimp only
                      rw [show 64 * (w + 1) = 64 * w + 64 by omega, exW_word _ w hw 64 (Nat.le_refl _), htc]) (by omega)
                  rw [i1]
                  have hmm := g3.merge i2 (by omega) (by omega) (by omega)
                  refine ⟨t', _, _, rfl, by rw [show w + (n + 1) = w + 1 + n by omega]; exact hmm, ?_, ?_⟩
                  · rw [i3]
                    dsimp only
                    repeat' split
                    all_goals first | rfl | (exfalso; omega)
                  · rw [i4]
                    dsimp only
                    repeat' split
                    all_goals first | rfl | (exfalso; omega) | omega
          obtain ⟨t', m2, q2, s1', s2', s3', s4'⟩ := scan 4 (p * 4) { s1 with cur := exW b.rs.bv.bits (256 * p) } (by omega) (by
            dsimp only; congr 1; omega) (by omega)
          rw [show 64 * (p * 4) = 256 * p by omega, show 64 * (p * 4 + 4) = 256 * p + 256 by omega] at s2'
          obtain ⟨u1, u2⟩ := s2'.unique hq
          refine ⟨_, t', e2, ?_, ?_⟩
          · unfold inMinBlock
            rw [if_pos (by exact hlt)]
            dsimp only
            rw [hc2, M.ok_bind, s1']
          · dsimp only at s3' s4'
            rw [u1, if_pos hlt] at s3' s4'
            rw [s3', s4', u2]
            exact hm
        · rw [if_neg hlt] at e2
          rw [if_neg hlt, if_neg hlt] at hm
          refine ⟨_, s1, e2, ?_, hm⟩
          unfold inMinBlock
          rw [if_neg (by simp)]
    obtain ⟨k, s2, k1, k2, k3⟩ := mid
    rw [k1, M.ok_bind, k2, M.ok_bind, blockExcess_spec H.rs (by omega) H.small, M.ok_bind]
    obtain ⟨s', g1, g2, g3⟩ := Exc.inBlock_extend (ws := b.rs.bv.bits) (a := a) (wb - bb * 4) (bb * 4) { s2 with cur := exW b.rs.bv.bits (256 * bb) }
      (by omega) (by dsimp only; congr 1; omega) (by omega) (by
        dsimp only
        rw [show 64 * (bb * 4) = 256 * bb by omega]; exact k3)
    rw [show bb * 4 + (wb - bb * 4) = wb by omega] at g2 g3
    exact ⟨s', g1, g2, g3⟩

/-- `excess_rmq`: the leftmost position of the least excess in `[a, e]` -/
theorem excessRmq_spec (H : b.Rep) {a e : Nat} (hae : a ≤ e) (he : e ≤ b.rs.bv.size) :
    ∃ m p, b.excessRmq a e = .ok (p, m) ∧ Best (exW b.rs.bv.bits) a e m p := by
  have hlen := H.rs.wf
  have hsm := H.small
  unfold wordsFor at hlen
  have hex : b.excess a = .ok (exW b.rs.bv.bits a) := by
    unfold excess
    rw [RS.rank_spec H.rs (by omega), M.ok_bind]
    apply congrArg Except.ok
    have := exW_diff b.rs.bv.bits 0 a
    rw [exW_zero, Nat.zero_add] at this
    show int32 (exW b.rs.bv.bits a) = _
    apply int32_id <;> omega
  unfold excessRmq
  rw [hex, M.ok_bind]
  by_cases hae2 : a = e
  · rw [if_pos hae2, ← hae2]
    exact ⟨_, _, rfl, Best.single _ _⟩
  rw [if_neg hae2]
  dsimp only
  obtain ⟨wa, hwa⟩ : ∃ wa, a / 64 = wa := ⟨_, rfl⟩
  obtain ⟨wb, hwb⟩ : ∃ wb, (e - 1) / 64 = wb := ⟨_, rfl⟩
  obtain ⟨r, hr⟩ : ∃ r, a % 64 = r := ⟨_, rfl⟩
  obtain ⟨n, hn⟩ : ∃ n, min (64 - r) (e - a) = n := ⟨_, rfl⟩
  rw [hwa, hwb, hr, hn]
  have hwl : wa < b.rs.bv.bits.length := by omega
  have hwbl : wb < b.rs.bv.bits.length := by omega
  rw [rd_ok hwl, M.ok_bind]
  generalize hx : (if n = 64 then b.rs.bv.bits[wa] >>> r else b.rs.bv.bits[wa] >>> r ||| (W.all <<< n)) = x
  have hx1 : ∀ j, j < n → x.getLsbD j = bitAt b.rs.bv.bits (a + j) := by
    intro j hj
    have e1 : (b.rs.bv.bits[wa] >>> r).getLsbD j = bitAt b.rs.bv.bits (a + j) := by
      rw [BitVec.getLsbD_ushiftRight, bitAt_word _ wa (r + j) hwl (by omega)]
      congr 1; omega
    rw [← hx]
    split
    · exact e1
    · rw [BitVec.getLsbD_or, all_shl_getLsbD, e1]
      simp; omega
  have hx2 : ∀ j, n ≤ j → j < 64 → x.getLsbD j = true := by
    intro j h1 h2
    rw [← hx, if_neg (by omega), BitVec.getLsbD_or, all_shl_getLsbD]
    simp; omega
  have hxe : ∀ q, q ≤ n → exW b.rs.bv.bits (a + q) = exW b.rs.bv.bits a + exc x.getLsbD q := by
    intro q hq
    unfold exW
    rw [exc_add]
    congr 1
    apply exc_congr
    intro j hj
    exact (hx1 j (by omega)).symm
  obtain ⟨m, j, g1, g2⟩ := Exc.inWord_spec x a ⟨exW b.rs.bv.bits a, exW b.rs.bv.bits a, a⟩
  dsimp only at g1 g2
  obtain ⟨g3, g4⟩ := Exc.padded (by omega) hx2 g1
  have g5 := g3.shift (e' := exW b.rs.bv.bits) (s := a) (fun q _ hq => hxe q hq)
  have g6 := (Best.single (exW b.rs.bv.bits) a).merge g5 (by omega) (by omega) (by omega)
  rw [g2]
  dsimp only
  by_cases hw : wa = wb
  · rw [if_pos hw]
    refine ⟨_, _, rfl, ?_⟩
    rw [show e = a + n by omega]
    exact g6
  · rw [if_neg hw]
    have han : a + n = 64 * (wa + 1) := by omega
    rw [han] at g6
    obtain ⟨s', s1, s2, s3⟩ := middle_spec H (a := a) (wa := wa) (wb := wb)
      (s := ⟨exW b.rs.bv.bits a + exc x.getLsbD 64 - (64 - (n : Int)), if m < exW b.rs.bv.bits a then m else exW b.rs.bv.bits a,
        if m < exW b.rs.bv.bits a then a + j else a⟩) (by omega) (by omega) (by omega) (by
        dsimp only
        rw [g4, ← han, hxe n (Nat.le_refl _)]; omega) g6
    rw [s1, M.ok_bind, rd_ok hwbl, M.ok_bind]
    generalize hy : (if e % 64 = 0 then b.rs.bv.bits[wb] else b.rs.bv.bits[wb] ||| (W.all <<< (e % 64))) = y
    have hy1 : ∀ j, j < e - 64 * wb → y.getLsbD j = bitAt b.rs.bv.bits (64 * wb + j) := by
      intro j hj
      rw [← hy, ← bitAt_word _ wb j hwbl (by omega)]
      split
      · rfl
      · rw [BitVec.getLsbD_or, all_shl_getLsbD]
        have : ¬ e % 64 ≤ j := by omega
        simp [this]
    have hy2 : ∀ j, e - 64 * wb ≤ j → j < 64 → y.getLsbD j = true := by
      intro j h1 h2
      rw [← hy, if_neg (by omega), BitVec.getLsbD_or, all_shl_getLsbD]
      have : e % 64 ≤ j := by omega
      simp [this, h2]
    have hye : ∀ q, q ≤ e - 64 * wb → exW b.rs.bv.bits (64 * wb + q) = exW b.rs.bv.bits (64 * wb) + exc y.getLsbD q := by
      intro q hq
      unfold exW
      rw [exc_add]
      congr 1
      apply exc_congr
      intro j hj
      exact (hy1 j (by omega)).symm
    obtain ⟨m2, j2, f1, f2⟩ := Exc.inWord_spec y (wb * 64) s'
    obtain ⟨f3, f4⟩ := Exc.padded (n := e - 64 * wb) (by omega) hy2 f1
    have f5 := f3.shift (e' := exW b.rs.bv.bits) (s := 64 * wb) (fun q _ hq => by rw [hye q hq, s2])
    have f6 := s3.merge f5 (by omega) (by omega) (by omega)
    rw [show 64 * wb + (e - 64 * wb) = e by omega] at f6
    rw [f2, Nat.mul_comm wb 64]
    exact ⟨_, _, rfl, f6⟩

end BP
end AC

namespace AC.BP

theorem build_spec {v : BVB} (hv : v.WF) (after : W) (h1 h0 : Bool) (hsz : v.size < 2 ^ 31) (h : 0 < v.size) :
    ∃ b, build (BV.build v after) h1 h0 = .ok b ∧ b.rs.bv = BV.build v after ∧ b.Rep := by
  obtain ⟨r, r1, r2, r3⟩ := RS.build_spec hv after h1 h0 (by omega)
  unfold build
  have hs : r.bv.size = v.size := by rw [r2]; rfl
  rw [r1, M.ok_bind, if_neg (show ¬ (BV.build v after).size = 0 by show ¬ v.size = 0; omega)]
  obtain ⟨b, b1, b2, b3⟩ := buildTree_spec r3 (by omega) (by omega)
  exact ⟨b, b1, by rw [b2, r2], b3⟩

end AC.BP
