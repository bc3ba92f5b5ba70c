import Verif.Proofs.Visit
import Verif.Proofs.BuildAll
import Verif.Proofs.BlkBuild
/-!
# The numbers of an index that was built are in the range of their types
-/
namespace AC

/-! ## Sequences -/

namespace DA

/-- the state of the constructor: positions below `n` -/
structure Small (n : Nat) (s : St) : Prop where
  cur : ∀ p ∈ s.cur, p < n
  over : ∀ p ∈ s.da.over, p < n
  blocks : ∀ b ∈ s.da.blocks, -(s.da.over.length : Int) - 1 ≤ b ∧ b ≤ n
  subs : ∀ b ∈ s.da.subs, b < 2 ^ 16
  blocksLen : s.da.blocks.length + s.cur.length ≤ s.da.positions
  subsLen : s.da.subs.length + s.cur.length ≤ s.da.positions
  overLen : s.da.over.length + s.cur.length ≤ s.da.positions

theorem flush_small {n : Nat} {s : St} (h : Small n s) (hc : s.cur ≠ []) : Small n (flush s) ∧ (flush s).cur = [] ∧
    (flush s).da.positions = s.da.positions := by
  have hpos : 0 < s.cur.length := List.length_pos_iff.mpr hc
  have hceil : ceilDiv s.cur.length subblockSize ≤ s.cur.length := by
    unfold ceilDiv subblockSize; omega
  have hfront : s.cur.headD 0 ≤ n := by
    cases e : s.cur with
    | nil => exact absurd e hc
    | cons a l => simp; exact Nat.le_of_lt (h.cur a (by simp [e]))
  have hb := h.blocksLen
  have hs := h.subsLen
  have ho := h.overLen
  unfold flush
  dsimp only
  split
  · refine ⟨⟨by simp, h.over, ?_, ?_, ?_, ?_, ?_⟩, rfl, rfl⟩
    · intro b hb
      rcases List.mem_append.mp hb with hb | hb
      · exact h.blocks b hb
      · rw [List.mem_singleton] at hb; subst hb; exact ⟨by omega, by exact_mod_cast hfront⟩
    · intro b hb
      rcases List.mem_append.mp hb with hb | hb
      · exact h.subs b hb
      · obtain ⟨i, _, rfl⟩ := List.mem_map.mp hb; exact Nat.mod_lt _ (by decide)
    · simp; omega
    · simp; omega
    · simp; omega
  · refine ⟨⟨by simp, ?_, ?_, ?_, ?_, ?_, ?_⟩, rfl, rfl⟩
    · intro p hp
      rcases List.mem_append.mp hp with hp | hp
      · exact h.over p hp
      · exact h.cur p hp
    · intro b hb
      simp only [List.length_append]
      rcases List.mem_append.mp hb with hb | hb
      · have := h.blocks b hb; constructor <;> omega
      · simp at hb; subst hb; constructor <;> omega
    · intro b hb
      rcases List.mem_append.mp hb with hb | hb
      · exact h.subs b hb
      · obtain ⟨i, _, rfl⟩ := List.mem_map.mp hb; decide
    · simp; omega
    · simp; omega
    · simp; omega

theorem push_small {n : Nat} {s : St} {p : Nat} (h : Small n s) (hp : p < n) : Small n (push s p) := by
  have hb := h.blocksLen
  have hs := h.subsLen
  have ho := h.overLen
  have hcur : ∀ q ∈ s.cur ++ [p], q < n := by
    intro q hq
    rcases List.mem_append.mp hq with hq | hq
    · exact h.cur q hq
    · simp at hq; omega
  unfold push
  dsimp only
  split
  · -- the block is full: as if the position had been counted first
    have h' : Small n ⟨s.cur ++ [p], { s.da with positions := s.da.positions + 1 }⟩ :=
      ⟨hcur, h.over, h.blocks, h.subs, by simp; omega, by simp; omega, by simp; omega⟩
    obtain ⟨a, b, c⟩ := flush_small h' (by simp)
    have e : (⟨(flush ⟨s.cur ++ [p], s.da⟩).cur, { (flush ⟨s.cur ++ [p], s.da⟩).da with
        positions := (flush ⟨s.cur ++ [p], s.da⟩).da.positions + 1 }⟩ : St) =
        flush ⟨s.cur ++ [p], { s.da with positions := s.da.positions + 1 }⟩ := by
      unfold flush
      dsimp only
      split <;> rfl
    rw [e]
    exact a
  · exact ⟨hcur, h.over, h.blocks, h.subs, by simp; omega, by simp; omega, by simp; omega⟩

theorem wordLoop_small {size : Nat} : ∀ (fuel pos : Nat) (w : W) (s t : St), wordLoop size fuel pos w s = .ok t → Small size s → Small size t
  | 0, _, _, _, _, h, _ => by cases h
  | fuel + 1, pos, w, s, t, h, hs => by
      unfold wordLoop at h
      split at h
      · cases h; exact hs
      · rename_i l _
        split at h
        · cases h; exact hs
        · rename_i hlt
          exact wordLoop_small fuel _ _ _ _ h (push_small hs (by omega))

theorem wordsLoop_small {neg : Bool} {size : Nat} : ∀ (ws : List W) (k : Nat) (s t : St), wordsLoop neg size k ws s = .ok t → Small size s →
    Small size t
  | [], _, _, _, h, hs => by cases h; exact hs
  | w :: ws, k, s, t, h, hs => by
      unfold wordsLoop at h
      obtain ⟨u, h1, h⟩ := bind_ok h
      exact wordsLoop_small ws (k + 1) u t h (wordLoop_small _ _ _ _ _ h1 hs)

theorem build_fits {neg : Bool} {v : BV} {d : DA} (h : build neg v = .ok d) (hv : v.size ≤ 64 * v.bits.length) (hs : v.size < 2 ^ 62) : d.Fits := by
  obtain ⟨d', h', hr⟩ := build_spec neg v hv
  rw [h] at h'
  cases h'
  have hpos : d.positions ≤ v.size := by rw [hr.pos]; exact cnt_le _ _
  unfold build at h
  obtain ⟨s, e, h⟩ := bind_ok h
  have sm := wordsLoop_small _ _ _ _ e ⟨by simp, by simp, by simp, by simp, by simp, by simp, by simp⟩
  have : Small v.size ⟨[], d⟩ := by
    split at h
    · rename_i hc
      obtain ⟨a, b, _⟩ := flush_small sm (fun he => hc (by rw [he]; rfl))
      cases h
      exact ⟨by simp, a.over, a.blocks, a.subs, by have := a.blocksLen; rw [b] at this; exact this, by have := a.subsLen; rw [b] at this; exact this,
        by have := a.overLen; rw [b] at this; exact this⟩
    · cases h
      exact ⟨by simp, sm.over, sm.blocks, sm.subs, by have := sm.blocksLen; simp; omega, by have := sm.subsLen; simp; omega,
        by have := sm.overLen; simp; omega⟩
  have l1 := this.blocksLen
  have l2 := this.subsLen
  have l3 := this.overLen
  simp only [List.length_nil, Nat.add_zero] at l1 l2 l3
  refine ⟨by omega, by omega, fun b hb => ?_, by omega, this.subs, by omega, fun b hb => ?_⟩
  · have := this.blocks b hb
    dsimp only at this
    omega
  · have := this.over b hb
    omega

end DA

namespace EF

theorem lowWidth_lt (n : Nat) (u : W) : lowWidth n u.toNat < 64 := by
  unfold lowWidth msbNat
  split
  · rename_i h
    have h1 : u.toNat / n ≤ u.toNat := Nat.div_le_self _ _
    have h2 := u.isLt
    rw [Nat.log2_lt h.2]; omega
  · omega

theorem lowWidth_high {n u : Nat} (hn : n ≠ 0) : u / 2 ^ lowWidth n u < 2 * n := by
  unfold lowWidth msbNat
  split
  · rename_i h
    have h1 : u / n < 2 ^ ((u / n).log2 + 1) := Nat.lt_log2_self
    rw [Nat.div_lt_iff_lt_mul (by exact Nat.two_pow_pos _)]
    have h2 := (Nat.div_lt_iff_lt_mul (Nat.pos_of_ne_zero hn)).mp h1
    rw [Nat.pow_succ] at h2
    calc u < _ := h2
      _ = 2 * n * 2 ^ (u / n).log2 := by rw [Nat.mul_comm, Nat.mul_comm (2 ^ _) 2, ← Nat.mul_assoc, Nat.mul_comm n 2]
  · rename_i h
    have : u / n = 0 := by
      by_cases h0 : u / n = 0
      · exact h0
      · exact absurd ⟨hn, h0⟩ h
    have := (Nat.div_eq_zero_iff).mp this
    simp; omega

theorem set_len {b b' : BVB} {p : Nat} {c : Bool} (h : b.set p c = .ok b') : b'.size = b.size ∧ b'.bits.length = b.bits.length := by
  unfold BVB.set at h
  obtain ⟨w, _, h⟩ := bind_ok h
  obtain ⟨l, e, h⟩ := bind_ok h
  cases h
  refine ⟨rfl, ?_⟩
  unfold wr at e
  split at e
  · cases e; simp
  · cases e

theorem compressLoop_len {l : Nat} (hl : l < 64) : ∀ (vs : List W) (i : Nat) (last : W) (lo hi lo' hi' : BVB),
    compressLoop l i last vs lo hi = .ok (lo', hi') → lo.WF →
    lo'.WF ∧ lo'.size = lo.size + vs.length * l ∧ hi'.size = hi.size ∧ hi'.bits.length = hi.bits.length
  | [], _, _, _, _, _, _, h, hw => by
      cases h
      exact ⟨hw, by simp, rfl, rfl⟩
  | v :: vs, i, last, lo, hi, lo', hi', h, hw => by
      unfold compressLoop at h
      split at h
      · cases h
      · obtain ⟨hb, e, h⟩ := bind_ok h
        have hm : (v &&& maskW l).toNat < 2 ^ l := by
          rw [BitVec.toNat_and, maskW_toNat l (by omega), Nat.and_two_pow_sub_one_eq_mod]; exact Nat.mod_lt _ (Nat.two_pow_pos l)
        have hw' : (if l ≠ 0 then lo.appendBits (v &&& maskW l) l else lo).WF := by
          split
          · exact BVB.appendBits_wf lo _ l hw (by omega) hm
          · exact hw
        have hs' : (if l ≠ 0 then lo.appendBits (v &&& maskW l) l else lo).size = lo.size + l := by
          split
          · rename_i h0
            unfold BVB.appendBits
            rw [if_neg h0]
            dsimp only
            split
            · rfl
            · split <;> rfl
          · omega
        obtain ⟨a1, a2, a3, a4⟩ := compressLoop_len hl vs _ _ _ _ _ _ h hw'
        obtain ⟨b1, b2⟩ := set_len e
        refine ⟨a1, ?_, by rw [a3, b1], by rw [a4, b2]⟩
        rw [a2, hs', List.length_cons, Nat.add_mul]
        omega

theorem compress_fits {vs : List W} {u : W} {x : EF} (h : compress vs u = .ok x) (h0 : vs.length ≠ 0) (hs : vs.length < 2 ^ 50) : x.Fits := by
  have hp := compress_plain h
  unfold compress at h
  obtain ⟨⟨lo, hi⟩, e, h⟩ := bind_ok h
  obtain ⟨d, ed, h⟩ := bind_ok h
  cases h
  have hl := lowWidth_lt vs.length u
  have hh := lowWidth_high (u := u.toNat) h0
  obtain ⟨m1, m2, _⟩ := BVB.mk'_spec (vs.length + (u >>> lowWidth vs.length u.toNat).toNat + 1) false
  obtain ⟨a1, a2, a3, a4⟩ := compressLoop_len hl _ _ _ _ _ _ _ e BVB.empty_wf
  have ml := m1.len
  rw [m2] at ml a3
  rw [ml] at a4
  have al := a1.len
  have e0 : BVB.empty.size = 0 := rfl
  rw [e0, Nat.zero_add] at a2
  have hlo : vs.length * lowWidth vs.length u.toNat ≤ 2 ^ 50 * 64 := Nat.mul_le_mul (by omega) (by omega)
  rw [shr_toNat] at a3 a4
  unfold wordsFor at al a4
  generalize lowWidth vs.length u.toNat = l at *
  have s1 : hi.size < 2 ^ 52 := by omega
  refine ⟨hp, by show l < 256; omega, ⟨?_, ?_⟩, ?_, ⟨?_, ?_⟩, ?_⟩
  · show hi.size < _; omega
  · show hi.bits.length < _; omega
  · refine DA.build_fits ed ?_ ?_
    · show hi.size ≤ 64 * hi.bits.length; omega
    · show hi.size < _; omega
  · show lo.size < _; omega
  · show lo.bits.length < _; omega
  · show vs.length < _; omega

theorem build_fits {vs : List W} {x : EF} (h : build vs = .ok x) (hs : vs.length < 2 ^ 50) : x.Fits := by
  unfold build at h
  split at h
  · cases h
  · rename_i u hu
    refine compress_fits h ?_ hs
    intro h0
    rw [List.length_eq_zero_iff.mp h0] at hu
    cases hu

theorem sumLoop_len : ∀ (ps : List Nat) (e r w : Nat) (p : W) (acc vs res : List W), sumLoop ps e r w p acc vs = .ok res →
    res.length = acc.length + vs.length := by
  intro ps e r w p acc vs
  induction vs generalizing ps e r w p acc with
  | nil => intro res h; unfold sumLoop at h; cases h; simp
  | cons v vs ih =>
      intro res h
      unfold sumLoop at h
      split at h
      · obtain ⟨⟨a, b, c⟩, _, h⟩ := bind_ok h
        have := ih _ _ _ _ _ _ _ h
        rw [this]; simp; omega
      · have := ih _ _ _ _ _ _ _ h
        rw [this]; simp; omega

theorem buildRuns_fits {vs : List W} {ps : List Nat} {x : EF} (h : buildRuns vs ps = .ok x) (hs : vs.length < 2 ^ 50) : x.Fits := by
  unfold buildRuns at h
  obtain ⟨_, _, h⟩ := bind_ok h
  obtain ⟨_, _, h⟩ := bind_ok h
  obtain ⟨values, e, h⟩ := bind_ok h
  have := sumLoop_len _ _ _ _ _ _ _ _ e
  exact build_fits h (by rw [this]; simpa using hs)

end EF

/-! ## Vectors of fixed width -/

theorem CV.build_fits {vs : List W} {w : Nat} {a : W} {x : CV} (h : CV.build vs w a = .ok x) (hs : vs.length < 2 ^ 50) : x.Fits := by
  by_cases hw : 1 ≤ w ∧ w ≤ 64
  · obtain ⟨c, e, r, _⟩ := CV.build_spec vs w a hw.1 hw.2
    rw [h] at e
    cases e
    have hm : vs.length * w ≤ 2 ^ 50 * 64 := Nat.mul_le_mul (by omega) hw.2
    refine ⟨by rw [r.size]; omega, by rw [r.width]; omega, ?_⟩
    rw [r.len]
    unfold wordsFor
    omega
  · rw [CV.build_width0 vs w a (by omega)] at h
    cases h

theorem CV.buildAuto_fits {vs : List W} {a : W} {x : CV} (h : CV.buildAuto vs a = .ok x) (hs : vs.length < 2 ^ 50) : x.Fits := by
  unfold CV.buildAuto at h
  split at h
  · cases h
  · exact CV.build_fits h hs

/-! ## Range-minimum structures -/

theorem RS.hintLoop_fits {zeros : Bool} {pairs : List W} : ∀ (fuel i t : Nat) (hs hs' : List Nat), hintLoop zeros pairs fuel i t hs = .ok hs' →
    hs'.length ≤ hs.length + fuel ∧ ∀ h ∈ hs', h ∈ hs ∨ h < i + fuel
  | 0, _, _, _, _, h => by cases h; exact ⟨by omega, fun h hh => .inl hh⟩
  | fuel + 1, i, t, hs, hs', h => by
      unfold hintLoop at h
      obtain ⟨r, _, h⟩ := bind_ok h
      split at h
      · obtain ⟨a, b⟩ := RS.hintLoop_fits fuel _ _ _ _ h
        simp only [List.length_append, List.length_cons, List.length_nil] at a
        refine ⟨by omega, fun x hx => ?_⟩
        rcases b x hx with hx | hx
        · rcases List.mem_append.mp hx with hx | hx
          · exact .inl hx
          · rw [List.mem_singleton] at hx; exact .inr (by omega)
        · exact .inr (by omega)
      · obtain ⟨a, b⟩ := RS.hintLoop_fits fuel _ _ _ _ h
        refine ⟨by omega, fun x hx => ?_⟩
        rcases b x hx with hx | hx
        · exact .inl hx
        · exact .inr (by omega)

theorem RS.buildHints_fits {zeros wanted : Bool} {pairs : List W} {hs : List Nat} (h : buildHints zeros wanted pairs = .ok hs) :
    hs.length ≤ numBlocks pairs + 1 ∧ ∀ x ∈ hs, x ≤ numBlocks pairs := by
  unfold buildHints at h
  split at h
  · obtain ⟨l, e, h⟩ := bind_ok h
    cases h
    obtain ⟨a, b⟩ := RS.hintLoop_fits _ _ _ _ _ e
    simp only [List.length_nil] at a
    refine ⟨by simp; omega, fun x hx => ?_⟩
    rcases List.mem_append.mp hx with hx | hx
    · rcases b x hx with hx | hx
      · simp at hx
      · omega
    · rw [List.mem_singleton] at hx; omega
  · cases h
    exact ⟨by simp, by simp⟩

namespace BP

theorem int16_range (x : Int) : -2 ^ 15 ≤ int16 x ∧ int16 x < 2 ^ 15 := by
  unfold int16
  have h1 := Int.le_bmod (x := x) (m := 2 ^ 16) (by decide)
  have h2 := Int.bmod_lt (x := x) (m := 2 ^ 16) (by decide)
  omega

theorem int32_range (x : Int) : -2 ^ 31 ≤ int32 x ∧ int32 x < 2 ^ 31 := by
  unfold int32
  have h1 := Int.le_bmod (x := x) (m := 2 ^ 32) (by decide)
  have h2 := Int.bmod_lt (x := x) (m := 2 ^ 32) (by decide)
  omega

theorem bitSteps_blocks (w : W) : ∀ (l : List Nat) (s : MinSt), (l.foldl (bitStep w) s).blocks = s.blocks
  | [], _ => rfl
  | i :: l, s => by rw [List.foldl_cons, bitSteps_blocks w l]; rfl

theorem minLoop_range {size n : Nat} : ∀ (ws : List W) (k : Nat) (s : MinSt), (∀ b ∈ s.blocks, -2 ^ 15 ≤ b ∧ b < 2 ^ 15) →
    ∀ b ∈ (minLoop size n k ws s).blocks, -2 ^ 15 ≤ b ∧ b < 2 ^ 15
  | [], _, s, h => h
  | w :: ws, k, s, h => by
      unfold minLoop
      refine minLoop_range ws (k + 1) _ ?_
      rw [bitSteps_blocks]
      unfold wordStart
      split
      · dsimp only
        split
        · intro b hb
          rcases List.mem_append.mp hb with hb | hb
          · exact h b hb
          · rw [List.mem_singleton] at hb; subst hb; exact int16_range _
        · exact h
      · exact h

theorem leaves_le {n : Nat} : ∀ (fuel k r : Nat), leaves n fuel k = .ok r → r ≤ max k (2 * n)
  | 0, _, _, h => by cases h
  | fuel + 1, k, r, h => by
      unfold leaves at h
      split at h
      · have := leaves_le fuel _ _ h; omega
      · cases h; omega

theorem fillLoop_mem : ∀ (node : Nat) (t t' : List Int), fillLoop node t = .ok t' → t'.length = t.length ∧ ∀ x ∈ t', x ∈ t
  | 0, _, _, h => by cases h; exact ⟨rfl, fun _ h => h⟩
  | 1, _, _, h => by cases h; exact ⟨rfl, fun _ h => h⟩
  | node + 2, t, t', h => by
      unfold fillLoop at h
      obtain ⟨p, e1, h⟩ := bind_ok h
      obtain ⟨x, e2, h⟩ := bind_ok h
      obtain ⟨u, e3, h⟩ := bind_ok h
      obtain ⟨a, b⟩ := fillLoop_mem (node + 1) u t' h
      have mem : ∀ {i : Nat} {y : Int}, rd t i = .ok y → y ∈ t := by
        intro i y hy
        unfold rd at hy
        split at hy
        · rename_i z hz
          cases hy
          exact List.mem_of_getElem? hz
        · cases hy
      unfold wr at e3
      split at e3
      · cases e3
        refine ⟨by rw [a]; simp, fun y hy => ?_⟩
        rcases List.mem_or_eq_of_mem_set (b y hy) with hy | hy
        · exact hy
        · have : y = p ∨ y = x := by omega
          rcases this with rfl | rfl
          · exact mem e1
          · exact mem e2
      · cases e3

theorem buildTree_fits {r : RS} {b : BP} (hb : buildTree r = .ok b) (h : r.Rep) (hsz : r.bv.size < 2 ^ 31) (h0 : 0 < r.bv.size) :
    b.internal < 2 ^ 64 ∧ (b.blockMin.length < 2 ^ 64 ∧ ∀ x ∈ b.blockMin, -2 ^ 15 ≤ x ∧ x < 2 ^ 15) ∧
      (b.superMin.length < 2 ^ 64 ∧ ∀ x ∈ b.superMin, -2 ^ 31 ≤ x ∧ x < 2 ^ 31) := by
  have hlen := h.wf
  unfold wordsFor at hlen
  unfold buildTree at hb
  have hbl := buildBlocks_spec h.wf h0
  have hc : ceilDiv r.bv.bits.length 4 = (r.bv.bits.length + 3) / 4 := by unfold ceilDiv; omega
  dsimp only at hb
  rw [hc] at hb
  generalize hn : ((r.bv.bits.length + 3) / 4 + 31) / 32 = n at hb
  obtain ⟨i, e1, hb⟩ := bind_ok hb
  obtain ⟨l, e2, hb⟩ := bind_ok hb
  obtain ⟨t, e3, hb⟩ := bind_ok hb
  cases hb
  rw [hbl, leafValues_spec h hsz rfl n 0 (by omega)] at e2
  cases e2
  have hi := leaves_le _ _ _ e1
  obtain ⟨t1, t2⟩ := fillLoop_mem _ _ _ e3
  refine ⟨by show i < _; omega, ⟨?_, ?_⟩, ?_, ?_⟩
  · show (buildBlocks _ _).length < _
    rw [hbl, List.length_map, List.length_range]
    omega
  · intro x hx
    have hx : x ∈ buildBlocks r.bv.bits r.bv.size := hx
    unfold buildBlocks at hx
    rcases List.mem_append.mp hx with hx | hx
    · exact minLoop_range _ _ _ (by simp) x hx
    · rw [List.mem_singleton] at hx; subst hx; exact int16_range _
  · show t.length < _
    rw [t1, List.length_append, List.length_replicate, List.length_map, List.length_range]
    omega
  · intro x hx
    rcases List.mem_append.mp (t2 x hx) with hx | hx
    · rw [List.eq_of_mem_replicate hx]; exact int32_range _
    · obtain ⟨k, hk, rfl⟩ := List.mem_map.mp hx
      rw [List.mem_range] at hk
      unfold sm
      obtain ⟨q, q1, q2, q3⟩ := minOver_mem (exW r.bv.bits) (8192 * (0 + k)) (min (8192 * (0 + k + 1)) r.bv.size - 8192 * (0 + k))
      rw [q3]
      have := exW_diff r.bv.bits 0 q
      rw [exW_zero, Nat.zero_add] at this
      omega

end BP

theorem RS.build_eq {v : BV} {a b : Bool} {x : RS} (h : RS.build v a b = .ok x) : x.bv = v ∧ x.pairs = buildPairs v.bits ∧
    (x.hints.length ≤ numBlocks x.pairs + 1 ∧ ∀ y ∈ x.hints, y ≤ numBlocks x.pairs) ∧
    (x.hints0.length ≤ numBlocks x.pairs + 1 ∧ ∀ y ∈ x.hints0, y ≤ numBlocks x.pairs) := by
  unfold RS.build at h
  obtain ⟨h1, e1, h⟩ := bind_ok h
  obtain ⟨h2, e2, h⟩ := bind_ok h
  cases h
  exact ⟨rfl, rfl, RS.buildHints_fits e1, RS.buildHints_fits e2⟩

theorem BP.build_fits {v : BVB} {a : W} {c d : Bool} {x : BP} (h : BP.build (BV.build v a) c d = .ok x) (hv : v.WF) (hs : v.size < 2 ^ 31)
    (h0 : 0 < v.size) : x.Fits := by
  obtain ⟨r, e, r2, r3⟩ := RS.build_spec hv a c d (by omega)
  unfold BP.build at h
  rw [e, M.ok_bind, if_neg (show ¬ (BV.build v a).size = 0 by show ¬ v.size = 0; omega)] at h
  have hsz : r.bv.size = v.size := by rw [r2]; rfl
  obtain ⟨b, b1, b2, b3⟩ := BP.buildTree_spec r3 (by omega) (by omega)
  rw [h] at b1
  cases b1
  obtain ⟨f1, f2, f3⟩ := BP.buildTree_fits h r3 (by omega) (by omega)
  obtain ⟨g1, g2, g3, g4⟩ := RS.build_eq e
  have hl := r3.wf
  unfold wordsFor at hl
  have hp := r3.pairs.len
  have hn : RS.numBlocks r.pairs < 2 ^ 62 := by unfold RS.numBlocks; omega
  refine ⟨⟨?_, ?_⟩, ?_, ?_, ?_, f1, f2, f3⟩
  · rw [b2]; omega
  · rw [b2]; omega
  · rw [b2]; omega
  · rw [b2]; exact ⟨by omega, fun y hy => by have := g3.2 y hy; omega⟩
  · rw [b2]; exact ⟨by omega, fun y hy => by have := g4.2 y hy; omega⟩

theorem CT.build_fits {v : List Nat} {a : W} {x : BP} (h : CT.build v a = .ok x) (hv : v.length < 2 ^ 30 - 1) : x.Fits := by
  obtain ⟨B, b1, b2, b3, b4⟩ := CT.finalize_spec v
  have hs : (CT.finalize (v.foldl CT.push ⟨[], BVB.empty⟩)).size = 2 * v.length + 2 := by rw [b1.size, List.length_reverse, b2]
  exact BP.build_fits h b1.wf (by omega) (by omega)

theorem UL.build_fits {v : List Nat} {a b : W} {x : UL} (h : UL.build v a b = .ok x) (hv : v.length < 2 ^ 30 - 1) : x.Fits := by
  unfold UL.build at h
  obtain ⟨t, e1, h⟩ := bind_ok h
  obtain ⟨c, e2, h⟩ := bind_ok h
  cases h
  exact ⟨CT.build_fits e1 hv, CV.buildAuto_fits e2 (by simp [toWords]; omega)⟩

/-! ## Dictionaries -/

namespace FC

/-- the bytes of the strings when nothing is shared -/
def cost (ss : List (List Nat)) : Nat := (ss.map (fun s => 2 + 4 * s.length)).sum

theorem length_le_cost : ∀ (ss : List (List Nat)), ss.length ≤ cost ss
  | [] => by simp
  | s :: ss => by
      have := length_le_cost ss
      have : cost (s :: ss) = (2 + 4 * s.length) + cost ss := by simp [cost]
      simp only [List.length_cons]; omega

/-- the bytes of a character -/
structure Plain (E : Elem) : Prop where
  len : ∀ c, (E.enc c).length ≤ 4
  byte : ∀ c, ∀ b ∈ E.enc c, b < 256

theorem bytesOf_fits {E : Elem} (hE : Plain E) : ∀ (s : List Nat), (bytesOf E s).length ≤ 4 * s.length ∧ ∀ b ∈ bytesOf E s, b < 256
  | [] => ⟨by simp [bytesOf], by simp [bytesOf]⟩
  | c :: s => by
      obtain ⟨h1, h2⟩ := bytesOf_fits hE s
      have e : bytesOf E (c :: s) = E.enc c ++ bytesOf E s := by simp [bytesOf]
      rw [e]
      refine ⟨?_, fun b hb => ?_⟩
      · have := hE.len c
        simp only [List.length_append, List.length_cons]
        omega
      · rcases List.mem_append.mp hb with hb | hb
        · exact hE.byte c b hb
        · exact h2 b hb

theorem write_fits {E : Elem} (hE : Plain E) {bk s : List Nat} {l : Nat} (hb : ∀ b ∈ bk, b < 256) :
    (write E bk s l).length ≤ bk.length + (2 + 4 * s.length) ∧ ∀ b ∈ write E bk s l, b < 256 := by
  obtain ⟨h1, h2⟩ := bytesOf_fits hE (s.drop l)
  unfold write
  refine ⟨?_, fun b hm => ?_⟩
  · simp only [List.length_append, List.length_cons, List.length_nil, List.length_drop] at h1 ⊢
    omega
  · simp only [List.mem_append, List.mem_singleton] at hm
    rcases hm with ((hm | hm) | hm) | hm
    · exact hb b hm
    · omega
    · omega
    · exact h2 b hm

theorem buildBucket_fits {E : Elem} (hE : Plain E) {lcpOf : List Nat → List Nat → Nat} : ∀ (n : Nat) (prev : List Nat) (input input' : List (List Nat))
    (bk bk' : List Nat), buildBucket E lcpOf n prev input bk = .ok (input', bk') → (∀ b ∈ bk, b < 256) →
    bk'.length + cost input' ≤ bk.length + cost input ∧ (∀ b ∈ bk', b < 256) ∧ ∀ s ∈ input', s ∈ input
  | 0, _, _, _, _, _, h, hb => by cases h; exact ⟨Nat.le_refl _, hb, fun _ h => h⟩
  | _ + 1, _, [], _, _, _, h, _ => by cases h
  | n + 1, prev, curr :: input, input', bk, bk', h, hb => by
      unfold buildBucket at h
      obtain ⟨w1, w2⟩ := write_fits hE (s := curr) (l := lcpOf curr prev) hb
      obtain ⟨a1, a2, a3⟩ := buildBucket_fits hE n curr input input' _ bk' h w2
      refine ⟨?_, a2, fun s hs => List.mem_cons_of_mem _ (a3 s hs)⟩
      have : cost (curr :: input) = (2 + 4 * curr.length) + cost input := by simp [cost]
      omega

structure Small (p c : Nat) (K : Nat) (d : FC) : Prop where
  size : d.size ≤ K
  ptrHeaders : ∀ b ∈ d.ptrHeaders, b < 256 ^ p
  ptrBuckets : ∀ b ∈ d.ptrBuckets, b < 256 ^ p
  headers : ∀ b ∈ d.headers, b < 256 ^ c
  buckets : ∀ b ∈ d.buckets, b < 256

theorem buildLoop_fits {E : Elem} (hE : Plain E) {p c K tl : Nat} (hp : E.ptr = 256 ^ p) {lcpOf : List Nat → List Nat → Nat} :
    ∀ (nb : Nat) (input : List (List Nat)) (d d' : FC), buildLoop E lcpOf tl nb input d = .ok d' → (∀ s ∈ input, ∀ x ∈ s, x < 256 ^ c) →
    Small p c K d → Small p c K d' ∧ d'.ptrHeaders.length = d.ptrHeaders.length + nb ∧ d'.ptrBuckets.length = d.ptrBuckets.length + nb ∧
      d'.headers.length + d'.buckets.length ≤ d.headers.length + d.buckets.length + cost input
  | 0, _, _, _, h, _, hs => by cases h; exact ⟨hs, rfl, rfl, by omega⟩
  | _ + 1, [], _, _, h, _, _ => by cases h
  | nb + 1, header :: input, d, d', h, hx, hs => by
      unfold buildLoop at h
      obtain ⟨⟨input', bk⟩, e, h⟩ := bind_ok h
      obtain ⟨a1, a2, a3⟩ := buildBucket_fits hE _ _ _ _ _ _ e hs.buckets
      have hpos : 0 < E.ptr := by rw [hp]; exact Nat.pow_pos (by decide)
      have cons : ∀ {l : List Nat} {y : Nat}, (∀ b ∈ l, b < 256 ^ p) → ∀ b ∈ l ++ [y % E.ptr], b < 256 ^ p := by
        intro l y hl b hb
        rcases List.mem_append.mp hb with hb | hb
        · exact hl b hb
        · rw [List.mem_singleton] at hb; subst hb; rw [← hp]; exact Nat.mod_lt _ hpos
      have hd : Small p c K ⟨d.size, d.ptrHeaders ++ [(d.headers ++ header).length % E.ptr], d.ptrBuckets ++ [bk.length % E.ptr],
          d.headers ++ header, bk⟩ := by
        refine ⟨hs.size, cons hs.ptrHeaders, cons hs.ptrBuckets, fun b hb => ?_, a2⟩
        rcases List.mem_append.mp hb with hb | hb
        · exact hs.headers b hb
        · exact hx header (List.mem_cons_self ..) b hb
      obtain ⟨b1, b2, b3, b4⟩ := buildLoop_fits hE hp nb input' _ d' h (fun s hs' => hx s (List.mem_cons_of_mem _ (a3 s hs'))) hd
      refine ⟨b1, ?_, ?_, ?_⟩
      · rw [b2]; simp; omega
      · rw [b3]; simp; omega
      · have : cost (header :: input) = (2 + 4 * header.length) + cost input := by simp [cost]
        simp only [List.length_append] at b4
        omega

theorem build_fits {E : Elem} (hE : Plain E) {p c : Nat} (hp : E.ptr = 256 ^ p) {lcpOf : List Nat → List Nat → Nat} {ss : List (List Nat)} {d : FC}
    (h : build E lcpOf ss = .ok d) (hx : ∀ s ∈ ss, ∀ x ∈ s, x < 256 ^ c) (hc : cost ss < 2 ^ 62) (hcap : E.cap * E.width < 2 ^ 62) : d.Fits p c := by
  unfold build at h
  obtain ⟨d', e, h⟩ := bind_ok h
  cases h
  have hlen := length_le_cost ss
  have hpp : 0 < 256 ^ p := Nat.pow_pos (by decide)
  obtain ⟨a1, a2, a3, a4⟩ := buildLoop_fits (K := 2 ^ 62) hE hp _ _ _ _ e hx ⟨by show ss.length ≤ _; omega, by simpa using hpp, by simpa using hpp, by simp, by simp⟩
  simp only [List.length_cons, List.length_nil] at a2 a3 a4
  have hsz := a1.size
  refine ⟨by show d'.size < _; omega, ⟨by show d'.ptrHeaders.length < _; omega, a1.ptrHeaders⟩, ⟨by show d'.ptrBuckets.length < _; omega, a1.ptrBuckets⟩,
    ⟨by show d'.headers.length < _; omega, a1.headers⟩, ?_, fun b hb => ?_⟩
  · simp only [List.length_append, List.length_replicate]; omega
  · rcases List.mem_append.mp hb with hb | hb
    · exact a1.buckets b hb
    · rw [List.eq_of_mem_replicate hb]; decide

theorem plain_byte : Plain Elem.byte := ⟨fun c => by simp [Elem.byte], fun c b hb => by simp [Elem.byte] at hb; omega⟩

theorem plain_u32 : Plain Elem.u32 :=
  ⟨fun c => by simp [Elem.u32], fun c b hb => by simp [Elem.u32] at hb; omega⟩

end FC

/-! ## Indexes -/

theorem BV.build_fits {v : BVB} (h : v.WF) (hs : v.size < 2 ^ 64) (a : W) : (BV.build v a).Fits := by
  have h' := h
  have hl : v.bits.length = wordsFor v.size := by first | exact h.len | exact h.1 | exact h
  unfold wordsFor at hl
  exact ⟨hs, by show v.bits.length < _; omega⟩

theorem InvIdx.build_fits {u : Nat} {lists : List (List Nat)} (h : InvLists u lists) (hs : (lists.map List.length).sum < 2 ^ 40) {b : InvBuilder}
    {a : W} {x : InvIdx} (hb : InvBuilder.mk' u lists = .ok b) (hx : b.build a = .ok x) : x.Fits := by
  obtain ⟨b', init, e1, e2⟩ := InvBuilder.addAll_spec lists ⟨0, u, [0], [], BVB.empty⟩ [] [] (u := u)
    (by
      refine ⟨?_, rfl, rfl, rfl, rfl, rfl, by simp, by intro i l hl; simp at hl, by simp [BVB.empty]⟩
      exact BVB.empty_wf)
    (fun l hl => h.valid hl)
  rw [List.nil_append] at e2
  have hinit : b'.pointers.dropLast = init := by rw [e2.ptrs]; simp
  unfold InvBuilder.mk' at hb
  rw [e1, M.ok_bind] at hb
  cases hb
  unfold InvBuilder.build at hx
  obtain ⟨p, f1, hx⟩ := bind_ok hx
  cases hx
  have hc := count_le_sum (lists := lists) (fun l hl => (h.each l hl).1)
  have hsz := e2.size
  have hu := h.univ
  have hi := e2.ints
  have hd := e2.docs
  have hl := e2.len
  refine ⟨by show b'.numIntegers < _; omega, by show b'.numDocs < _; omega, EF.build_fits f1 ?_, BV.build_fits e2.wf (by omega) a⟩
  show (toWords b'.pointers.dropLast).length < _
  rw [hinit]
  simp only [toWords, List.length_map]
  omega

theorem FwdIdx.build_fits {n : Nat} {lists : List (List Nat)} {a : W} {x : FwdIdx} (hx : FwdIdx.build n lists a = .ok x) (hn : n < 2 ^ 32)
    (hl : lists.length < 2 ^ 40) (hs : (lists.map List.length).sum < 2 ^ 40) : x.Fits := by
  unfold FwdIdx.build at hx
  rw [readLists_eq] at hx
  dsimp only at hx
  obtain ⟨d, e1, hx⟩ := bind_ok hx
  obtain ⟨p, e2, hx⟩ := bind_ok hx
  cases hx
  have hf : ([] ++ lists.flatten).length < 2 ^ 40 := by rw [List.nil_append, List.length_flatten]; exact hs
  refine ⟨Nat.lt_trans hf (by decide), by show n < _; omega, EF.build_fits e2 ?_, CV.build_fits e1 ?_⟩
  · simp only [toWords, List.length_map, List.length_append, List.length_cons, List.length_nil, ends_length]; omega
  · simp only [toWords, List.length_map]; omega

theorem BlkIdx.build_fits {u m : Nat} {lists : List (List Nat)} (hL : BlkLists u lists) {std : StdLib} {b : BlkBuilder} {mem : Nat → W} {x : BlkIdx}
    (hb : BlkBuilder.mk' std m u lists = .ok b) (hx : b.build mem = .ok x) : x.Fits := by
  obtain ⟨b', s, docss, e1, h⟩ := BlkBuilder.addAll_inv hL std m
  unfold BlkBuilder.mk' at hb
  rw [e1, M.ok_bind] at hb
  cases hb
  unfold BlkBuilder.build at hx
  obtain ⟨p1, f1, hx⟩ := bind_ok hx
  obtain ⟨p2, f2, hx⟩ := bind_ok hx
  obtain ⟨p3, f3, hx⟩ := bind_ok hx
  cases hx
  have htot := h.total
  rw [postingsIn_all] at htot
  have hfew := hL.few
  have hu := hL.univ
  have hi := h.ints
  rw [postingsIn_all] at hi
  have hd := h.docs
  have ht := h.terms
  have hc := count_le_sum (lists := lists) (fun l hl => (hL.each l hl).1)
  have hsl := stored_length lists b'.blocks docss 0 h.blocks.len
  have hcnt : (stored lists 0 b'.blocks docss).length ≤ ((stored lists 0 b'.blocks docss).map rowTotal).sum := by
    have := sum_map_le (fun _ => 1) rowTotal 1 (stored lists 0 b'.blocks docss) (fun x hx => by have := h.pos x hx; omega)
    rw [Nat.one_mul] at this
    refine Nat.le_trans (Nat.le_of_eq ?_) this
    generalize stored lists 0 b'.blocks docss = l
    clear this
    induction l with
    | nil => rfl
    | cons a l ih => simp only [List.map_cons, List.sum_cons, List.length_cons, ← ih]; omega
  have s1 := h.st1.size
  have s2 := h.st2.size
  have s3 := h.st3.size
  have l1 := h.st1.len
  have l2 := h.st2.len
  have l3 := h.st3.len
  have hb1 := sum_map_le wDocs rowTotal 448 (stored lists 0 b'.blocks docss) (fun x hx => by have := h.pos x hx; unfold wDocs; omega)
  have hb2 := sum_map_le wOffs rowTotal 448 (stored lists 0 b'.blocks docss) (fun x hx => by have := h.pos x hx; unfold wOffs; omega)
  have hb3 := sum_map_le wTerms rowTotal 448 (stored lists 0 b'.blocks docss) (fun x hx => by have := h.pos x hx; unfold wTerms; omega)
  have hbl : ∀ y ∈ b'.blocks, y < 2 ^ 32 := by
    have hp := h.blocks.incr
    have hlast := h.last
    intro y hy
    rw [List.getLastD_eq_getLast?] at hlast
    obtain ⟨pre, z, hz⟩ : ∃ pre z, b'.blocks = pre ++ [z] :=
      ⟨_, _, (List.dropLast_concat_getLast (List.ne_nil_of_mem hy)).symm⟩
    rw [hz] at hlast hy hp
    simp only [List.getLast?_append, List.getLast?_singleton, Option.some_or, Option.getD_some] at hlast
    rcases List.mem_append.mp hy with hy | hy
    · have := (List.pairwise_append.mp (List.pairwise_cons.mp hp).2).2.2 y hy z (List.mem_singleton.mpr rfl)
      omega
    · rw [List.mem_singleton] at hy
      omega
  refine ⟨by show b'.numIntegers < _; omega, by show b'.numDocs < _; omega, by show b'.numTerms < _; omega, ⟨by show b'.blocks.length < _; omega, hbl⟩,
    EF.build_fits f1 ?_, BV.build_fits h.st1.wf (by omega) _, EF.build_fits f2 ?_, BV.build_fits h.st2.wf (by omega) _,
    EF.build_fits f3 ?_, BV.build_fits h.st3.wf (by omega) _⟩
  all_goals
    simp only [toWords, List.length_map, List.length_dropLast]
    omega

/-! ## The trie -/

namespace Trie

structure Level.Small (n : Nat) (t : Level) : Prop where
  nodes : t.nodes.length ≤ n
  left : t.left.length ≤ n
  sizes : t.sizes.length ≤ n
  ptrs : t.ptrs.length ≤ n + 1

theorem Level.step_small {n levels l prevS m i : Nat} {c : Ids} {t : Level} (h : t.Small n) : (t.step levels l prevS c m i).Small (n + 1) := by
  obtain ⟨h1, h2, h3, h4⟩ := h
  unfold Level.step
  dsimp only
  constructor <;> (repeat' split) <;> (try simp only [List.length_append, List.length_cons, List.length_nil]) <;> omega

theorem loop_small {levels : Nat} : ∀ (cs : List Ids) (prev : Ids) (m : Nat) (ts : List Level) (n : Nat) (r : Ids × Nat × List Level),
    loop levels prev m cs ts = .ok r → (∀ t ∈ ts, t.Small n) → ∀ t ∈ r.2.2, t.Small (n + cs.length)
  | [], _, _, _, _, _, h, hs => by cases h; exact hs
  | c :: cs, prev, m, ts, n, r, h, hs => by
      unfold loop at h
      split at h
      · intro t ht
        have := loop_small cs _ _ _ (n + 1) r h (by
          intro t ht
          obtain ⟨i, hi, rfl⟩ := List.mem_mapIdx.mp ht
          exact Level.step_small (hs _ (List.getElem_mem hi))) t ht
        rw [List.length_cons, show n + (cs.length + 1) = n + 1 + cs.length by omega]
        exact this
      · cases h

theorem finish_small {levels prevS n next i k : Nat} {t : Level} (h : t.Small k) : (t.finish levels prevS n next i).Small (k + 1) := by
  obtain ⟨h1, h2, h3, h4⟩ := h
  unfold Level.finish
  dsimp only
  constructor <;> (repeat' split) <;> simp [sumLoop_length] <;> omega

theorem collect_small {levels : Nat} {cs : List Ids} {ts : List Level} (h : collect levels cs = .ok ts) : ∀ t ∈ ts, t.Small (cs.length + 1) := by
  unfold collect at h
  obtain ⟨⟨prev, n, ts'⟩, e, h⟩ := bind_ok h
  dsimp only at h
  split at h
  · cases h
  cases h
  intro t ht
  obtain ⟨i, hi, rfl⟩ := List.mem_mapIdx.mp ht
  have := loop_small cs _ _ _ 0 _ e (by
    intro t ht
    rw [List.eq_of_mem_replicate ht]
    constructor <;> simp [Level.init]) _ (List.getElem_mem hi)
  rw [Nat.zero_add] at this
  exact finish_small this

theorem buildPtrs_fits {levels i : Nat} {t : Level} {p : Option EF} (h : buildPtrs levels i t = .ok p) (hs : t.ptrs.length < 2 ^ 50) :
    ∀ q, p = some q → q.Fits := by
  unfold buildPtrs at h
  split at h
  · obtain ⟨q, e, h⟩ := bind_ok h
    cases h
    intro q' hq
    cases hq
    exact EF.build_fits e (by simpa [words] using hs)
  · cases h
    intro q hq
    cases hq

theorem buildNodes_fits {ts : List Level} {i : Nat} {t : Level} {x : EF} (h : buildNodes ts i t = .ok x) (hs : t.nodes.length < 2 ^ 50) : x.Fits := by
  unfold buildNodes at h
  split at h
  · obtain ⟨q, e, h⟩ := bind_ok h
    exact EF.buildRuns_fits h (by simpa [words] using hs)
  · exact EF.build_fits h (by simpa [words] using hs)

theorem build_fits {levels : Nat} {cs : List Ids} {x : List CLevel} (h : build levels cs = .ok x) (hc : cs.length < 2 ^ 32) (hl : levels < 2 ^ 64) :
    Trie.Fits cs.length x := by
  unfold build at h
  obtain ⟨ts, e, h⟩ := bind_ok h
  have hs := collect_small e
  obtain ⟨hlen, hget⟩ := tabM_get h
  have all : ∀ t ∈ x, t.nodes.Fits ∧ t.left.Fits ∧ t.sizes.Fits ∧ ∀ p, t.ptrs = some p → p.Fits := by
    intro t ht
    obtain ⟨i, hi⟩ := List.getElem?_of_mem ht
    have := hget i t hi
    unfold buildLevel at this
    obtain ⟨l, e0, this⟩ := bind_ok this
    obtain ⟨p, e1, this⟩ := bind_ok this
    obtain ⟨lf, e2, this⟩ := bind_ok this
    obtain ⟨sz, e3, this⟩ := bind_ok this
    obtain ⟨nd, e4, this⟩ := bind_ok this
    cases this
    have hl : l ∈ ts := by
      unfold rd at e0
      split at e0
      · rename_i z hz
        cases e0
        exact List.mem_of_getElem? hz
      · cases e0
    obtain ⟨s1, s2, s3, s4⟩ := hs l hl
    exact ⟨buildNodes_fits e4 (by omega), EF.build_fits e2 (by simp only [words, List.length_map]; omega),
      EF.build_fits e3 (by simp only [words, List.length_map]; omega), buildPtrs_fits e1 (by omega)⟩
  exact ⟨hc, by omega, fun t ht => (all t ht).1, fun t ht => (all t ht).2.1, fun t ht => (all t ht).2.2.1, fun t ht => (all t ht).2.2.2⟩

end Trie

/-! ## Indexes of a collection -/

open Spec

theorem FC.cost_le {ss : List (List Nat)} {n : Nat} (h : ∀ s ∈ ss, s.length ≤ n) : FC.cost ss ≤ ss.length * (2 + 4 * n) := by
  induction ss with
  | nil => simp [FC.cost]
  | cons s ss ih =>
      have h1 := h s (List.mem_cons_self ..)
      have h2 := ih (fun s hs => h s (List.mem_cons_of_mem _ hs))
      have : FC.cost (s :: ss) = (2 + 4 * s.length) + FC.cost ss := by simp [FC.cost]
      rw [List.length_cons, Nat.succ_mul]
      omega

theorem FcDict.build_fits {ts : List Str} {d : FC} (v : ValidTerms ts) (h : FcDict.build ts = .ok d) : d.Fits 4 1 := by
  have h1 := FC.cost_le v.len
  have h2 : ts.length * (2 + 4 * 128) ≤ 2 ^ 32 * (2 + 4 * 128) := Nat.mul_le_mul_right _ (by have := v.count; omega)
  refine FC.build_fits FC.plain_byte (by decide) h (fun s hs x hx => ?_) (by omega) (by decide)
  have := v.text s hs x hx
  omega

theorem IntDict.lexBucket_len : ∀ (n : Nat) (input : List (Nat × Ids)) (lex : Nat) (v : List Nat) (r : List (Nat × Ids) × Nat × List Nat),
    IntDict.lexBucket n input lex v = .ok r → r.2.2.length = v.length
  | 0, _, _, _, _, h => by cases h; rfl
  | _ + 1, [], _, _, _, h => by cases h
  | n + 1, a :: input, lex, v, r, h => by
      unfold IntDict.lexBucket at h
      obtain ⟨v', e, h⟩ := bind_ok h
      rw [IntDict.lexBucket_len n _ _ _ _ h]
      unfold wr at e
      split at e
      · cases e; simp
      · cases e

theorem IntDict.lexLoop_len {tl : Nat} : ∀ (nb : Nat) (input : List (Nat × Ids)) (lex : Nat) (v r : List Nat),
    IntDict.lexLoop tl nb input lex v = .ok r → r.length = v.length
  | 0, _, _, _, _, h => by cases h; rfl
  | _ + 1, [], _, _, _, h => by cases h
  | nb + 1, a :: input, lex, v, r, h => by
      unfold IntDict.lexLoop at h
      obtain ⟨v', e, h⟩ := bind_ok h
      obtain ⟨⟨i2, l2, v2⟩, e2, h⟩ := bind_ok h
      rw [IntDict.lexLoop_len nb _ _ _ _ h]
      have := IntDict.lexBucket_len _ _ _ _ _ e2
      dsimp only at this
      rw [this]
      unfold wr at e
      split at e
      · cases e; simp
      · cases e

theorem IntDict.build_fits {univ : Nat} {rs : List (Nat × Ids)} {d : FC} {v : List Nat} (hv : ValidIds (rs.map (·.2))) (h : IntDict.build univ rs = .ok (d, v)) :
    d.Fits 8 4 ∧ v.length = univ := by
  unfold IntDict.build at h
  dsimp only at h
  obtain ⟨v', e1, h⟩ := bind_ok h
  obtain ⟨d', e2, h⟩ := bind_ok h
  cases h
  refine ⟨?_, by rw [IntDict.lexLoop_len _ _ _ _ _ e1, List.length_replicate]⟩
  have h1 := FC.cost_le (n := 64) (fun s hs => Nat.le_of_lt (hv.len s hs))
  have h2 : (rs.map (·.2)).length * (2 + 4 * 64) ≤ 2 ^ 32 * (2 + 4 * 64) := Nat.mul_le_mul_right _ (by have := hv.count; omega)
  refine FC.build_fits FC.plain_u32 (by decide) e2 (fun s hs x hx => ?_) (by omega) (by decide)
  have := (hv.elems s hs x hx).2
  omega

theorem invertLoop_len {size : Nat} : ∀ (l : List Nat) (d : Nat) (v : List Nat), (invertLoop size l d v).length = v.length
  | [], _, _ => rfl
  | a :: l, d, v => by
      unfold invertLoop
      rw [invertLoop_len l]
      split <;> simp

namespace Ready
variable {C : Coll} {F : Files} (h : Ready C F)
include h

theorem postings_lt : (F.inverted.map List.length).sum < 2 ^ 30 := by
  have := h.postings_le
  have := h.coll.size
  omega

theorem mapped_lt : F.mapped.length < 2 ^ 30 - 1 := by
  have := h.count_le
  have := h.coll.size
  rw [h.length_mapped]
  omega

theorem levels_lt : F.levels < 2 ^ 64 := by
  obtain ⟨r, hr, he⟩ := h.files.levels
  have := h.coll.short r hr
  omega

theorem forward_lt : F.forward.length < 2 ^ 32 ∧ (F.forward.map List.length).sum < 2 ^ 40 := by
  have hu := h.univ_lt
  have hn := h.files.numDocs
  have := sum_le_mul h F.forward 64 (by
    intro l hl
    rcases h.mem_forward hl with rfl | ⟨r, hr, rfl⟩
    · simp
    · have := h.coll.short r hr
      rw [List.length_map]; omega)
  have h2 : F.forward.length * 64 ≤ 2 ^ 32 * 64 := Nat.mul_le_mul_right _ (by omega)
  omega

theorem fits_base {mem : Nat → W} {x : Base} (hx : Base.build F mem = .ok x) : x.Fits := by
  unfold Base.build at hx
  obtain ⟨⟨c, d⟩, e1, hx⟩ := bind_ok hx
  obtain ⟨lex, e2, hx⟩ := bind_ok hx
  obtain ⟨docs, e3, hx⟩ := bind_ok hx
  obtain ⟨dict, e4, hx⟩ := bind_ok hx
  cases hx
  obtain ⟨i1, i2⟩ := IntDict.build_fits h.validIds e1
  have hu := h.univ_lt
  refine ⟨i1, UL.build_fits e3 ?_, FcDict.build_fits h.validTerms e4, CV.build_fits e2 ?_⟩
  · show (invert d F.mapped.length).length < _
    rw [invert, invertLoop_len, List.length_replicate]
    exact h.mapped_lt
  · simp only [toWords, List.length_map]; omega

theorem fits_minimal {a b : W} {ib : InvBuilder} {u : UL} (hb : InvBuilder.mk' F.univ F.inverted = .ok ib) (hu : UL.build ib.minimal a b = .ok u) : u.Fits := by
  obtain ⟨ib', b1, b2, b3⟩ := InvBuilder.build_spec h.invLists
  rw [hb] at b1
  cases b1
  refine UL.build_fits hu ?_
  have := h.termCount_le
  have := h.coll.size
  rw [b2, List.length_map, h.files.numLists]
  omega

theorem fits_inverted {a : W} {ib : InvBuilder} {x : InvIdx} (hb : InvBuilder.mk' F.univ F.inverted = .ok ib) (hx : ib.build a = .ok x) : x.Fits :=
  InvIdx.build_fits h.invLists (by have := h.postings_lt; omega) hb hx

end Ready

theorem Index1.build_fits {C : Coll} {F : Files} (h : Ready C F) {mem : Nat → W} {x : Index1} (hx : Index1.build F mem = .ok x) : x.Fits := by
  unfold Index1.build at hx
  obtain ⟨ib, e1, hx⟩ := bind_ok hx
  obtain ⟨docs, e2, hx⟩ := bind_ok hx
  obtain ⟨minimal, e3, hx⟩ := bind_ok hx
  obtain ⟨compl, e4, hx⟩ := bind_ok hx
  obtain ⟨dict, e5, hx⟩ := bind_ok hx
  obtain ⟨inv, e6, hx⟩ := bind_ok hx
  obtain ⟨fwd, e7, hx⟩ := bind_ok hx
  cases hx
  have hm := h.mapped_lt
  have ht := Trie.build_fits e4 (by rw [List.length_map]; omega) h.levels_lt
  rw [List.length_map] at ht
  have hf := h.forward_lt
  have := h.validTerms.count
  exact ⟨ht, UL.build_fits e2 (by rw [List.length_map]; exact hm), h.fits_minimal e1 e3, FcDict.build_fits h.validTerms e5, h.fits_inverted e1 e6,
    FwdIdx.build_fits e7 (by omega) (by omega) hf.2⟩

theorem Index2.build_fits {C : Coll} {F : Files} (h : Ready C F) {mem : Nat → W} {x : Index2} (hx : Index2.build F mem = .ok x) : x.Fits := by
  unfold Index2.build at hx
  obtain ⟨ib, e1, hx⟩ := bind_ok hx
  obtain ⟨base, e2, hx⟩ := bind_ok hx
  obtain ⟨minimal, e3, hx⟩ := bind_ok hx
  obtain ⟨inv, e4, hx⟩ := bind_ok hx
  cases hx
  exact ⟨h.fits_base e2, h.fits_minimal e1 e3, h.fits_inverted e1 e4⟩

theorem Index3.build_fits {C : Coll} {F : Files} (h : Ready C F) {mem : Nat → W} {x : Index3} (hx : Index3.build F mem = .ok x) : x.Fits := by
  unfold Index3.build at hx
  obtain ⟨ib, e1, hx⟩ := bind_ok hx
  obtain ⟨base, e2, hx⟩ := bind_ok hx
  obtain ⟨inv, e3, hx⟩ := bind_ok hx
  cases hx
  exact ⟨h.fits_base e2, h.fits_inverted e1 e3⟩

theorem Index4.build_fits {C : Coll} {F : Files} (h : Ready C F) {std : StdLib} {m : Nat} {mem : Nat → W} {x : Index4}
    (hx : Index4.build std m F mem = .ok x) : x.Fits := by
  unfold Index4.build at hx
  obtain ⟨ib, e1, hx⟩ := bind_ok hx
  obtain ⟨base, e2, hx⟩ := bind_ok hx
  obtain ⟨inv, e3, hx⟩ := bind_ok hx
  cases hx
  have hp := h.postings_lt
  exact ⟨h.fits_base e2, BlkIdx.build_fits ⟨h.invLists, by omega⟩ e1 e3⟩

end AC
