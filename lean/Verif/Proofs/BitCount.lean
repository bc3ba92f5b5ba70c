import Verif.Proofs.BitAppend
/-! # Counting, selecting, and the words operations -/
namespace AC

theorem cnt_succ (f : Nat → Bool) (n : Nat) : cnt f (n + 1) = cnt f n + (f n).toNat := rfl

theorem cnt_congr {f g : Nat → Bool} {n : Nat} (h : ∀ i, i < n → f i = g i) : cnt f n = cnt g n := by
  induction n with
  | zero => rfl
  | succ n ih =>
      unfold cnt
      rw [ih (fun i hi => h i (by omega)), h n (by omega)]

theorem cnt_add (f : Nat → Bool) (a n : Nat) : cnt f (a + n) = cnt f a + cnt (fun i => f (a + i)) n := by
  induction n with
  | zero => rfl
  | succ n ih =>
      have : a + (n + 1) = (a + n) + 1 := by omega
      rw [this, cnt_succ, cnt_succ, ih]; omega

theorem cnt_le (f : Nat → Bool) (n : Nat) : cnt f n ≤ n := by
  induction n with
  | zero => simp [cnt]
  | succ n ih => unfold cnt; have := Bool.toNat_le (f n); omega

theorem cnt_mono (f : Nat → Bool) {a b : Nat} (h : a ≤ b) : cnt f a ≤ cnt f b := by
  obtain ⟨n, rfl⟩ := Nat.exists_eq_add_of_le h
  rw [cnt_add]; omega

theorem cnt_lt (f : Nat → Bool) {a b : Nat} (h : a < b) (ha : f a = true) : cnt f a < cnt f b := by
  have : cnt f (a + 1) ≤ cnt f b := cnt_mono f (by omega)
  have h2 : cnt f (a + 1) = cnt f a + 1 := by simp [cnt, ha]
  omega

theorem cnt_zero {f : Nat → Bool} {n : Nat} (h : ∀ i, i < n → f i = false) : cnt f n = 0 := by
  rw [cnt_congr (g := fun _ => false) h]
  induction n with
  | zero => rfl
  | succ n ih => unfold cnt; rw [ih (fun i hi => h i (by omega))]; rfl

theorem cnt_all {f : Nat → Bool} {n : Nat} (h : ∀ i, i < n → f i = true) : cnt f n = n := by
  induction n with
  | zero => rfl
  | succ n ih => unfold cnt; rw [ih (fun i hi => h i (by omega)), h n (by omega)]; rfl

theorem cnt_not (f : Nat → Bool) (n : Nat) : cnt f n + cnt (fun i => !f i) n = n := by
  induction n with
  | zero => rfl
  | succ n ih => unfold cnt; cases h : f n <;> simp <;> omega

theorem cnt_le_add (f : Nat → Bool) (a n : Nat) : cnt f (a + n) ≤ cnt f a + n := by
  rw [cnt_add]; have := cnt_le (fun i => f (a + i)) n; omega

theorem IsSelect.unique {f : Nat → Bool} {k p q : Nat} (hp : IsSelect f k p) (hq : IsSelect f k q) : p = q := by
  rcases Nat.lt_trichotomy p q with h | h | h
  · have := cnt_lt f h hp.1; have := hp.2; have := hq.2; omega
  · exact h
  · have := cnt_lt f h hq.1; have := hp.2; have := hq.2; omega

theorem exists_select {f : Nat → Bool} {k n : Nat} (h : k < cnt f n) : ∃ p, p < n ∧ IsSelect f k p := by
  induction n with
  | zero => simp [cnt] at h
  | succ n ih =>
      by_cases h1 : k < cnt f n
      · obtain ⟨p, hp, hs⟩ := ih h1; exact ⟨p, by omega, hs⟩
      · unfold cnt at h
        cases hf : f n
        · rw [hf] at h; simp at h; omega
        · rw [hf] at h; simp at h; exact ⟨n, by omega, hf, by omega⟩

theorem IsSelect.lt_cnt {f : Nat → Bool} {k p n : Nat} (h : IsSelect f k p) (hn : p < n) : k < cnt f n := by
  have := cnt_lt f hn h.1; have := h.2; omega

theorem IsSelect.lt_of_lt_cnt {f : Nat → Bool} {k p n : Nat} (h : IsSelect f k p) (hn : k < cnt f n) : p < n := by
  apply Nat.lt_of_not_le
  intro hle
  have := cnt_mono f hle
  have := h.2; omega

theorem filter_range_length (f : Nat → Bool) (n : Nat) : ((List.range n).filter f).length = cnt f n := by
  induction n with
  | zero => rfl
  | succ n ih =>
      rw [List.range_succ, List.filter_append, List.length_append, ih, cnt_succ]
      cases h : f n <;> simp [h]

theorem filter_range_select (f : Nat → Bool) (n k : Nat) (h : k < cnt f n) :
    ∃ p, ((List.range n).filter f)[k]? = some p ∧ p < n ∧ IsSelect f k p := by
  induction n with
  | zero => simp [cnt] at h
  | succ n ih =>
      rw [List.range_succ, List.filter_append]
      by_cases h1 : k < cnt f n
      · obtain ⟨p, hp, hn, hs⟩ := ih h1
        rw [List.getElem?_append_left (by rw [filter_range_length]; exact h1)]
        exact ⟨p, hp, by omega, hs⟩
      · rw [List.getElem?_append_right (by rw [filter_range_length]; omega), filter_range_length]
        unfold cnt at h
        cases hf : f n
        · rw [hf] at h; simp at h; omega
        · rw [hf] at h; simp at h
          refine ⟨n, ?_, by omega, hf, by omega⟩
          have : k - cnt f n = 0 := by omega
          simp [this, hf]

/-! ## words -/

theorem W.popcount_eq (x : W) : x.popcount = cnt x.getLsbD 64 := filter_range_length _ _

theorem W.select_eq (x : W) (k : Nat) (h : k < x.popcount) :
    x.select k < 64 ∧ IsSelect x.getLsbD k (x.select k) := by
  rw [W.popcount_eq] at h
  obtain ⟨p, hp, hn, hs⟩ := filter_range_select x.getLsbD 64 k h
  have : x.select k = p := by
    unfold W.select W.ones
    rw [List.getD_eq_getElem?_getD, hp]; rfl
  rw [this]; exact ⟨hn, hs⟩

theorem W.lsb_none (x : W) (h : x.lsb = none) : ∀ j, x.getLsbD j = false := by
  intro j
  unfold W.lsb W.ones at h
  rw [List.head?_eq_none_iff, List.filter_eq_nil_iff] at h
  by_cases hj : j < 64
  · have := h j (by simpa using hj)
    simpa using this
  · exact getLsbD_ge _ _ (by omega)

theorem W.lsb_some (x : W) (l : Nat) (h : x.lsb = some l) :
    l < 64 ∧ x.getLsbD l = true ∧ ∀ j, j < l → x.getLsbD j = false := by
  unfold W.lsb at h
  have hpos : 0 < cnt x.getLsbD 64 := by
    rw [← W.popcount_eq]
    unfold W.popcount
    cases he : x.ones with
    | nil => simp [he] at h
    | cons a as => simp
  obtain ⟨p, hp, hn, hs⟩ := filter_range_select x.getLsbD 64 0 hpos
  rw [List.head?_eq_getElem?] at h
  unfold W.ones at h
  rw [hp] at h
  cases h
  refine ⟨hn, hs.1, ?_⟩
  intro j hj
  cases hf : x.getLsbD j
  · rfl
  · have := cnt_lt x.getLsbD hj hf
    have := hs.2; omega

theorem filter_getLast {f : Nat → Bool} {n p : Nat} (h : ((List.range n).filter f).getLast? = some p) :
    p < n ∧ f p = true ∧ ∀ j, p < j → j < n → f j = false := by
  induction n with
  | zero => simp at h
  | succ n ih =>
      rw [List.range_succ, List.filter_append] at h
      cases hf : f n
      · simp only [List.filter_cons, hf, List.filter_nil, List.append_nil, Bool.false_eq_true, if_false] at h
        obtain ⟨h1, h2, h3⟩ := ih h
        refine ⟨by omega, h2, ?_⟩
        intro j hj hn
        by_cases e : j = n
        · rw [e]; exact hf
        · exact h3 j hj (by omega)
      · simp [hf] at h
        subst h
        exact ⟨by omega, hf, by intro j h1 h2; omega⟩

theorem W.msb_some (x : W) (l : Nat) (h : x.msb = some l) :
    l < 64 ∧ x.getLsbD l = true ∧ ∀ j, l < j → j < 64 → x.getLsbD j = false := filter_getLast h

theorem W.msb_none (x : W) (h : x.msb = none) : ∀ j, x.getLsbD j = false := by
  intro j
  unfold W.msb W.ones at h
  rw [List.getLast?_eq_none_iff, List.filter_eq_nil_iff] at h
  by_cases hj : j < 64
  · have := h j (by simpa using hj)
    simpa using this
  · exact getLsbD_ge _ _ (by omega)

/-- clearing the least significant one: `x & (x - 1)` -/
theorem clear_lsb (x : W) (l : Nat) (hl : l < 64) (h1 : x.getLsbD l = true) (h0 : ∀ j, j < l → x.getLsbD j = false)
    (j : Nat) : (x &&& (x - 1)).getLsbD j = (x.getLsbD j && decide (j ≠ l)) := by
  -- x = 2^(l+1) m + 2^l
  have hm : x.toNat % 2 ^ (l + 1) = 2 ^ l := by
    apply Nat.eq_of_testBit_eq
    intro i
    rw [Nat.testBit_mod_two_pow, Nat.testBit_two_pow, BitVec.testBit_toNat]
    by_cases hi : i < l
    · have h2 : ¬ l = i := by omega
      simp [h0 i hi, h2]
    · by_cases he : i = l
      · subst he; simp [h1]
      · have h2 : ¬ l = i := by omega
        have h3 : ¬ i < l + 1 := by omega
        simp [h2, h3]
  have hdecomp : x.toNat = 2 ^ (l + 1) * (x.toNat / 2 ^ (l + 1)) + 2 ^ l := by
    have := Nat.div_add_mod x.toNat (2 ^ (l + 1)); omega
  generalize x.toNat / 2 ^ (l + 1) = m at hdecomp
  have hp : 1 ≤ 2 ^ l := Nat.one_le_two_pow
  have hlt : 2 ^ l < 2 ^ (l + 1) := Nat.pow_lt_pow_right (by omega) (by omega)
  have hx64 : x.toNat < 2 ^ 64 := x.isLt
  have hsub : (x - 1).toNat = 2 ^ (l + 1) * m + (2 ^ l - 1) := by
    rw [BitVec.toNat_sub]
    have e1 : (1 : W).toNat = 1 := rfl
    rw [e1]
    omega
  rw [BitVec.getLsbD_and]
  by_cases hj : j ≤ l
  · by_cases he : j = l
    · subst he
      have : (x - 1).getLsbD j = false := by
        rw [← BitVec.testBit_toNat, hsub, Nat.testBit_two_pow_mul_add _ (by omega), if_pos (by omega)]
        exact Nat.testBit_lt_two_pow (by omega)
      rw [this]; simp
    · simp [h0 j (by omega)]
  · have : (x - 1).getLsbD j = x.getLsbD j := by
      rw [← BitVec.testBit_toNat, ← BitVec.testBit_toNat, hsub, hdecomp, Nat.testBit_two_pow_mul_add _ (by omega),
        Nat.testBit_two_pow_mul_add _ (by omega), if_neg (by omega), if_neg (by omega)]
    have h2 : j ≠ l := by omega
    rw [this]; simp [h2]

end AC
