import Verif.Proofs.EliasFano
import Verif.Proofs.Visit
import Verif.Model.Sizes
/-!
# The sizes of Elias-Fano sequences
-/
namespace AC

namespace DA

/-- the positions that are stored one by one lie in wide blocks -/
structure Wide (s : St) (p : Nat) : Prop where
  sorted : s.cur.Pairwise (· < ·)
  lt : ∀ x ∈ s.cur, x < p
  short : s.cur.length < 1024
  over : 64 * s.da.over.length ≤ s.cur.headD p
  narrow : p ≤ 65536 → s.da.over = []

theorem Wide.flush_over {cur : List Nat} {da : DA} {p : Nat} (hlt : ∀ x ∈ cur, x < p) (hl : cur.length ≤ 1024) (hne : cur ≠ [])
    (ho : 64 * da.over.length ≤ cur.headD p) : 64 * (flush ⟨cur, da⟩).da.over.length ≤ p := by
  obtain ⟨a, l, rfl⟩ := List.exists_cons_of_ne_nil hne
  have ha := hlt a (List.mem_cons_self ..)
  have hb : (a :: l).getLastD 0 < p := hlt _ (by
    rw [List.getLastD_eq_getLast?, List.getLast?_eq_some_getLast (by simp), Option.getD_some]
    exact List.getLast_mem _)
  simp only [List.headD_cons] at ho
  unfold flush
  dsimp only
  split
  · dsimp only; omega
  · rename_i hw
    dsimp only [maxInBlockDistance, List.headD_cons] at hw ⊢
    rw [List.length_append]
    omega

theorem Wide.flush_narrow {cur : List Nat} {da : DA} {p : Nat} (hlt : ∀ x ∈ cur, x < p) (hne : cur ≠ []) (ho : da.over = []) (hp : p ≤ 65536) :
    (flush ⟨cur, da⟩).da.over = [] := by
  obtain ⟨a, l, rfl⟩ := List.exists_cons_of_ne_nil hne
  have hb : (a :: l).getLastD 0 < p := hlt _ (by
    rw [List.getLastD_eq_getLast?, List.getLast?_eq_some_getLast (by simp), Option.getD_some]
    exact List.getLast_mem _)
  unfold flush
  dsimp only
  rw [if_pos (by unfold maxInBlockDistance; omega)]
  exact ho

theorem Wide.push {s : St} {p q : Nat} (h : Wide s p) (hq : p ≤ q) : Wide (DA.push s q) (q + 1) := by
  have hh : s.cur.headD p ≤ (s.cur ++ [q]).headD 0 := by
    cases hc : s.cur with
    | nil => simpa using hq
    | cons a l => simp
  have h1 := h.short
  have h2 := h.over
  unfold DA.push
  dsimp only
  by_cases hf : (s.cur ++ [q]).length = blockSize
  · rw [if_pos hf]
    have hl : (s.cur ++ [q]).length ≤ 1024 := Nat.le_of_eq hf
    have hlt : ∀ x ∈ s.cur ++ [q], x < q + 1 := by
      intro x hx
      rcases List.mem_append.mp hx with hx | hx
      · have := h.lt x hx; omega
      · simp at hx; omega
    have ho := Wide.flush_over (cur := s.cur ++ [q]) (da := s.da) hlt hl (by simp) (by
      cases hc : s.cur with
      | nil => rw [hc] at h2; simp at h2 ⊢; omega
      | cons a l => rw [hc] at h2; simpa using h2)
    have hc : (flush ⟨s.cur ++ [q], s.da⟩).cur = [] := by
      unfold flush
      dsimp only
      split <;> rfl
    refine ⟨?_, ?_, ?_, ?_, fun hp' => Wide.flush_narrow hlt (by simp) (h.narrow (by omega)) hp'⟩
    · simp only [hc]; exact List.Pairwise.nil
    · simp only [hc]; simp
    · simp only [hc]; simp
    · simp only [hc]; simpa using ho
  · rw [if_neg hf]
    refine ⟨?_, ?_, ?_, ?_, fun hp' => h.narrow (by omega)⟩
    · dsimp only
      rw [List.pairwise_append]
      refine ⟨h.sorted, by simp, ?_⟩
      intro x hx y hy
      have := h.lt x hx
      simp at hy
      omega
    · dsimp only
      intro x hx
      rcases List.mem_append.mp hx with hx | hx
      · have := h.lt x hx; omega
      · simp at hx; omega
    · dsimp only
      have : (s.cur ++ [q]).length ≠ 1024 := hf
      rw [List.length_append, List.length_singleton] at this ⊢
      omega
    · dsimp only
      cases hc : s.cur with
      | nil => rw [hc] at h2; simp at h2 ⊢; omega
      | cons a l => rw [hc] at h2; simpa using h2

theorem Wide.mono {s : St} {p q : Nat} (h : Wide s p) (hq : p ≤ q) : Wide s q := by
  refine ⟨h.sorted, fun x hx => Nat.lt_of_lt_of_le (h.lt x hx) hq, h.short, Nat.le_trans h.over ?_, fun hp => h.narrow (by omega)⟩
  cases s.cur with
  | nil => simpa using hq
  | cons a l => simp

theorem wordLoop_wide {size e : Nat} : ∀ (fuel pos : Nat) (w : W) (s s' : St), Wide s (min pos size) →
    pos ≤ e → (∀ j, w.getLsbD j = true → pos + j < e) → wordLoop size fuel pos w s = .ok s' → Wide s' (min e size)
  | 0, _, _, _, _, _, _, _, h => by simp [wordLoop] at h
  | fuel + 1, pos, w, s, s', hw, hp, hb, h => by
      unfold wordLoop at h
      cases hl : w.lsb with
      | none =>
          rw [hl] at h
          cases h
          exact hw.mono (by omega)
      | some l =>
          rw [hl] at h
          obtain ⟨_, l2, _⟩ := W.lsb_some w l hl
          have hlt := hb l l2
          dsimp only at h
          split at h
          · cases h
            exact hw.mono (by omega)
          · refine wordLoop_wide fuel (pos + l + 1) _ _ s' ?_ (by omega) ?_ h
            · rw [show min (pos + l + 1) size = pos + l + 1 by omega]
              exact hw.push (by omega)
            · intro j hj
              rw [BitVec.getLsbD_ushiftRight, BitVec.getLsbD_ushiftRight] at hj
              have := hb _ hj
              omega

theorem wordsLoop_wide {neg : Bool} {size : Nat} : ∀ (ws : List W) (k : Nat) (s s' : St), Wide s (min (64 * k) size) →
    wordsLoop neg size k ws s = .ok s' → Wide s' size
  | [], _, _, _, hw, h => by
      unfold wordsLoop at h
      cases h
      exact hw.mono (by omega)
  | w :: ws, k, s, s', hw, h => by
      unfold wordsLoop at h
      obtain ⟨s1, h1, h2⟩ := bind_ok h
      refine wordsLoop_wide ws (k + 1) s1 s' ?_ h2
      refine wordLoop_wide 65 (64 * k) _ s s1 hw (by omega) ?_ h1
      intro j hj
      have := BitVec.lt_of_getLsbD hj
      omega

/-- the sizes of the parts of a select structure -/
theorem build_sizes {neg : Bool} {v : BV} (hv : v.size ≤ 64 * v.bits.length) {d : DA} (h : build neg v = .ok d) :
    d.blocks.length = ceilDiv d.positions 1024 ∧ d.subs.length = ceilDiv d.positions 32 ∧
      64 * d.over.length ≤ v.size ∧ (v.size ≤ 65536 → d.over = []) ∧ d.positions = cnt (seen neg v.bits) v.size := by
  obtain ⟨d', h', hr⟩ := build_spec neg v hv
  obtain rfl : d = d' := by rw [h] at h'; cases h'; rfl
  have hn := hr.pos
  have h1 := hr.good.blen
  have h2 := hr.good.slen
  rw [filter_range_length, ← hn] at h1 h2
  refine ⟨by rw [h1]; rfl, by rw [h2]; rfl, ?_, ?_, hn⟩
  all_goals
    unfold build at h
    obtain ⟨s, hs, h⟩ := bind_ok h
    have hw := wordsLoop_wide v.bits 0 _ s ⟨List.Pairwise.nil, by simp, by simp, by simp, fun _ => rfl⟩ hs
    cases h
  · split
    · rename_i hne
      exact Wide.flush_over hw.lt (Nat.le_of_lt hw.short) (by intro hc; rw [hc] at hne; exact hne rfl) hw.over
    · rename_i hne
      have hc : s.cur = [] := by simpa using hne
      have := hw.over
      rw [hc] at this
      simpa using this
  · intro hv
    split
    · rename_i hne
      exact Wide.flush_narrow hw.lt (by intro hc; rw [hc] at hne; exact hne rfl) (hw.narrow hv) hv
    · exact hw.narrow hv

end DA

theorem BVB.set_len {v r : BVB} {pos : Nat} {b : Bool} (h : v.set pos b = .ok r) : r.size = v.size ∧ r.bits.length = v.bits.length := by
  unfold BVB.set at h
  obtain ⟨w, _, h⟩ := bind_ok h
  obtain ⟨bits, h1, h⟩ := bind_ok h
  cases h
  refine ⟨rfl, ?_⟩
  unfold wr at h1
  split at h1
  · cases h1; simp
  · cases h1

namespace EF

theorem compressLoop_sizes {l : Nat} (hl : l < 64) : ∀ (vs : List W) (i : Nat) (last : W) (lowB highB lowB' highB' : BVB), lowB.WF →
    compressLoop l i last vs lowB highB = .ok (lowB', highB') →
    highB'.size = highB.size ∧ highB'.bits.length = highB.bits.length ∧ lowB'.WF ∧ lowB'.size = lowB.size + vs.length * l
  | [], _, _, _, _, _, _, hw, h => by
      unfold compressLoop at h
      cases h
      exact ⟨rfl, rfl, hw, by simp⟩
  | v :: vs, i, last, lowB, highB, lowB', highB', hw, h => by
      unfold compressLoop at h
      split at h
      · cases h
      · obtain ⟨hb, h1, h2⟩ := bind_ok h
        obtain ⟨e1, e2⟩ := BVB.set_len h1
        have hv : (v &&& maskW l).toNat < 2 ^ l := by
          apply lt_of_getLsbD
          intro j hj
          rw [BitVec.getLsbD_and, maskW_getLsbD _ _ (by omega), decide_eq_false (by omega)]; simp
        have hstep : (if l ≠ 0 then lowB.appendBits (v &&& maskW l) l else lowB).WF ∧
            (if l ≠ 0 then lowB.appendBits (v &&& maskW l) l else lowB).size = lowB.size + l := by
          by_cases h0 : l = 0
          · rw [if_neg (by simpa using h0)]; exact ⟨hw, by omega⟩
          · rw [if_pos h0]
            exact ⟨lowB.appendBits_wf _ _ hw (by omega) hv, BVB.appendBits_size ..⟩
        obtain ⟨r1, r2, r3, r4⟩ := compressLoop_sizes hl vs _ _ _ _ _ _ hstep.1 h2
        refine ⟨by omega, by omega, r3, ?_⟩
        rw [r4, hstep.2, List.length_cons, Nat.add_mul, Nat.one_mul]
        omega

/-- the parts of a sequence -/
theorem build_sizes {vs : List W} (hs : vs.Pairwise (fun a b => a.toNat ≤ b.toNat)) {e : EF} {u : W} (hu : vs.getLast? = some u)
    (h : build vs = .ok e) :
    e.l = lowWidth vs.length u.toNat ∧ e.l < 64 ∧ e.high.size = vs.length + u.toNat / 2 ^ e.l + 1 ∧ e.high.bits.length = wordsFor e.high.size ∧
      e.low.bits.length = wordsFor (vs.length * e.l) ∧ e.d1.positions = vs.length ∧ e.d1.blocks.length = ceilDiv vs.length 1024 ∧
      e.d1.subs.length = ceilDiv vs.length 32 ∧ 64 * e.d1.over.length ≤ e.high.size ∧ (e.high.size ≤ 65536 → e.d1.over = []) := by
  have hne : vs ≠ [] := by intro hc; rw [hc] at hu; cases hu
  obtain ⟨e', h', hr⟩ := build_spec vs hne hs
  obtain rfl : e = e' := by rw [h] at h'; cases h'; rfl
  unfold build at h
  rw [hu] at h
  dsimp only at h
  unfold compress at h
  obtain ⟨⟨lowB, highB⟩, h1, h⟩ := bind_ok h
  obtain ⟨d, h2, h⟩ := bind_ok h
  obtain rfl : e = _ := by cases h; rfl
  have hl := hr.l64
  dsimp only at hl h2 ⊢
  obtain ⟨c1, c2, c3, c4⟩ := compressLoop_sizes hl vs 0 0 _ _ _ _ BVB.empty_wf h1
  obtain ⟨m1, m2, _⟩ := BVB.mk'_spec (vs.length + (u >>> lowWidth vs.length u.toNat).toNat + 1) false
  have hsz : highB.size = vs.length + u.toNat / 2 ^ (lowWidth vs.length u.toNat) + 1 := by rw [c1, m2, shr_toNat]
  have hbl : highB.bits.length = wordsFor highB.size := by rw [c2, m1.len, c1]
  have hlow : lowB.bits.length = wordsFor (vs.length * lowWidth vs.length u.toNat) := by
    rw [c3.len, c4]
    simp [BVB.empty]
  obtain ⟨d1, d2, d3, d5, d4⟩ := DA.build_sizes hr.highLen h2
  have ht := hr.total
  dsimp only at ht
  rw [seen_false, ht] at d4
  rw [d4] at d1 d2
  exact ⟨rfl, hl, hsz, hbl, hlow, d4, d1, d2, d3, d5⟩

theorem lowWidth_bounds {n u : Nat} (hn : n ≠ 0) : u < n * 2 ^ (lowWidth n u + 1) ∧ (lowWidth n u = 0 ∨ n * 2 ^ lowWidth n u ≤ u) := by
  unfold lowWidth msbNat
  by_cases hd : u / n = 0
  · rw [if_neg (by simp [hd])]
    have h1 := Nat.div_add_mod u n
    have h2 := Nat.mod_lt u (Nat.pos_of_ne_zero hn)
    rw [hd] at h1
    exact ⟨by simp only [Nat.zero_add, Nat.pow_one]; omega, Or.inl rfl⟩
  · rw [if_pos ⟨hn, hd⟩]
    have h1 := Nat.lt_log2_self (n := u / n)
    have h2 := Nat.log2_self_le hd
    refine ⟨?_, Or.inr ?_⟩
    · rw [Nat.div_lt_iff_lt_mul (Nat.pos_of_ne_zero hn)] at h1
      rw [Nat.mul_comm]; exact h1
    · rw [Nat.le_div_iff_mul_le (Nat.pos_of_ne_zero hn)] at h2
      rw [Nat.mul_comm]; exact h2

/-- the high bits: at most three for each element -/
theorem high_le {n u : Nat} (hn : n ≠ 0) : u / 2 ^ lowWidth n u + 1 ≤ 2 * n := by
  have h := (lowWidth_bounds (u := u) hn).1
  rw [Nat.pow_succ, ← Nat.mul_assoc, Nat.mul_right_comm, ← Nat.div_lt_iff_lt_mul (Nat.pow_pos (by omega))] at h
  omega

theorem bytes_le {vs : List W} (hs : vs.Pairwise (fun a b => a.toNat ≤ b.toNat)) {e : EF} {u : W} (hu : vs.getLast? = some u)
    (h : build vs = .ok e) : 128 * e.bytes ≤ vs.length * (16 * e.l + 105) + 12640 := by
  obtain ⟨h1, _, h3, h4, h5, h6, h7, h8, h9, _⟩ := build_sizes hs hu h
  have hn : vs.length ≠ 0 := by
    intro hc
    rw [List.length_eq_zero_iff] at hc
    rw [hc] at hu; cases hu
  have hh := high_le (u := u.toNat) hn
  rw [← h1] at hh
  unfold EF.bytes DA.bytes BV.bytes vecBytes
  rw [h4, h5, h7, h8]
  unfold wordsFor ceilDiv
  rw [Nat.mul_add (vs.length) (16 * e.l), Nat.mul_left_comm]
  generalize vs.length * e.l = nl
  omega

end EF
end AC
