import Verif.Model.Float32
/-!
# Rounding of floats
-/
namespace AC.F32

theorem round_small {v : Nat} (h : v < 2 ^ 24) : round v = v := by
  unfold round; rw [if_pos h]

/-- the exponent and the significand of a number that needs rounding -/
theorem split24 {v : Nat} (h : ¬ v < 2 ^ 24) : 2 ^ 23 ≤ v / 2 ^ (v.log2 - 23) ∧ v / 2 ^ (v.log2 - 23) < 2 ^ 24 ∧ 1 ≤ v.log2 - 23 := by
  have hv : v ≠ 0 := by omega
  have h1 : 2 ^ v.log2 ≤ v := Nat.log2_self_le hv
  have h2 : v < 2 ^ (v.log2 + 1) := Nat.lt_log2_self
  have h3 : 24 ≤ v.log2 := by
    rw [Nat.le_log2 hv]; omega
  have e1 : 2 ^ v.log2 = 2 ^ 23 * 2 ^ (v.log2 - 23) := by
    rw [← Nat.pow_add]; congr 1; omega
  have e2 : 2 ^ (v.log2 + 1) = 2 ^ 24 * 2 ^ (v.log2 - 23) := by
    rw [← Nat.pow_add]; congr 1; omega
  refine ⟨?_, ?_, by omega⟩
  · rw [Nat.le_div_iff_mul_le (Nat.two_pow_pos _), ← e1]; exact h1
  · rw [Nat.div_lt_iff_lt_mul (Nat.two_pow_pos _), ← e2]; exact h2

/-- A number is rounded to a multiple of a power of two; the error is at most half of it, and the power is small. -/
theorem round_near (v : Nat) : ∃ s j, round v = j * 2 ^ s ∧ 2 * v ≤ 2 * round v + 2 ^ s ∧ 2 * round v ≤ 2 * v + 2 ^ s ∧ (s = 0 ∨ 2 ^ 23 * 2 ^ s ≤ v) ∧ (round v ≤ v ∨ ∃ i, v < i * 2 ^ s ∧ (i - 1) * 2 ^ s ≤ v ∧ round v = i * 2 ^ s) ∧ (s = 0 → round v = v) := by
  by_cases h : v < 2 ^ 24
  · refine ⟨0, v, ?_⟩
    rw [round_small h]
    refine ⟨by omega, by omega, by omega, Or.inl rfl, Or.inl (Nat.le_refl _), fun _ => rfl⟩
  · obtain ⟨h1, h2, h3⟩ := split24 h
    have hd := Nat.div_add_mod v (2 ^ (v.log2 - 23))
    have hr := Nat.mod_lt v (Nat.two_pow_pos (v.log2 - 23))
    unfold round
    rw [if_neg h]
    dsimp only
    generalize hs : v.log2 - 23 = s at *
    generalize hq : v / 2 ^ s = q at *
    generalize hm : v % 2 ^ s = r at *
    rw [Nat.mul_comm] at hd
    have hle : 2 ^ 23 * 2 ^ s ≤ v := Nat.le_trans (Nat.mul_le_mul_right _ h1) (by omega)
    have he : (q + 1) * 2 ^ s = q * 2 ^ s + 2 ^ s := by rw [Nat.add_mul, Nat.one_mul]
    split
    · rename_i hc
      simp only [Bool.or_eq_true, decide_eq_true_eq, Bool.and_eq_true, beq_iff_eq] at hc
      refine ⟨s, q + 1, rfl, by omega, by omega, Or.inr hle, Or.inr ⟨q + 1, by omega, ?_, rfl⟩, by omega⟩
      simp only [Nat.add_sub_cancel]
      omega
    · rename_i hc
      simp only [Bool.or_eq_true, decide_eq_true_eq, Bool.and_eq_true, beq_iff_eq, not_or] at hc
      exact ⟨s, q, rfl, by omega, by omega, Or.inr hle, Or.inl (by omega), by omega⟩

theorem one_eq : one = 2 ^ 149 := rfl

theorem one_pos : 0 < one := Nat.two_pow_pos _

/-- an integer below `2^24` is a float: rounding does not cross it -/
theorem round_le {v i : Nat} (hi : i < 2 ^ 24) (h : v ≤ i * one) : round v ≤ i * one := by
  obtain ⟨s, j, e1, _, _, e4, e5, e6⟩ := round_near v
  rcases e5 with e5 | ⟨m, h1, h2, h3⟩
  · omega
  · have hs : s ≤ 149 := by
      rcases e4 with e4 | e4
      · omega
      · refine Decidable.byContradiction fun hn => ?_
        have : 2 ^ 150 ≤ 2 ^ s := Nat.pow_le_pow_right (by decide) (by omega)
        have h5 : 2 ^ 23 * 2 ^ 150 ≤ v := Nat.le_trans (Nat.mul_le_mul_left _ this) e4
        have h6 : i * one < 2 ^ 24 * one := Nat.mul_lt_mul_of_pos_right hi one_pos
        rw [one_eq] at h6 h
        have h7 : (2 : Nat) ^ 24 * 2 ^ 149 = 2 ^ 23 * 2 ^ 150 := by decide
        omega
    have hd : one = 2 ^ (149 - s) * 2 ^ s := by
      rw [one_eq, ← Nat.pow_add]; congr 1; omega
    rw [h3, hd, ← Nat.mul_assoc]
    rw [hd, ← Nat.mul_assoc] at h
    refine Nat.mul_le_mul_right _ ?_
    refine Decidable.byContradiction fun hn => ?_
    have : i * 2 ^ (149 - s) ≤ m - 1 := by omega
    have h8 := Nat.mul_le_mul_right (2 ^ s) this
    have h9 : v = (m - 1) * 2 ^ s := by omega
    -- then `v` is a multiple and would not have been rounded up
    have h10 : m - 1 + 1 = m := by omega
    have h11 : m * 2 ^ s = (m - 1) * 2 ^ s + 2 ^ s := by
      rw [← h10, Nat.add_mul, Nat.one_mul]; simp
    have := Nat.two_pow_pos s
    omega

/-- the error of rounding is at most one half, for numbers below `2^24` -/
theorem round_ge {v : Nat} (h : v < 2 ^ 24 * one) : 2 * v ≤ 2 * round v + one := by
  obtain ⟨s, j, e1, e2, _, e4, _, e6⟩ := round_near v
  rcases e4 with rfl | e4
  · rw [e6 rfl]; omega
  · have h1 : 2 ^ 23 * 2 ^ s < 2 ^ 24 * one := Nat.lt_of_le_of_lt e4 h
    have hs : s ≤ 149 := by
      refine Decidable.byContradiction fun hn => ?_
      have : 2 ^ 150 ≤ 2 ^ s := Nat.pow_le_pow_right (by decide) (by omega)
      rw [one_eq] at h1
      omega
    have : 2 ^ s ≤ 2 ^ 149 := Nat.pow_le_pow_right (by decide) hs
    rw [one_eq]
    omega

theorem ceil_le {v i : Nat} (h : v ≤ i * one) : ceil v ≤ i := by
  unfold ceil
  have : v + (one - 1) < (i + 1) * one := by
    rw [Nat.add_mul, Nat.one_mul]
    have := one_pos
    omega
  exact Nat.le_of_lt_succ ((Nat.div_lt_iff_lt_mul one_pos).mpr this)

theorem le_ceil (v : Nat) : v ≤ ceil v * one := by
  unfold ceil
  have h1 := Nat.div_add_mod (v + (one - 1)) one
  have h2 := Nat.mod_lt (v + (one - 1)) one_pos
  rw [Nat.mul_comm] at h1
  have := one_pos
  omega

/-- the number of characters: an integer not smaller than `n * p`, and smaller only because of rounding -/
theorem ceil_mul {n p i : Nat} (hi : i < 2 ^ 24) (h : n * p ≤ i * one) : ceil (mul n p) ≤ i ∧ 2 * (n * p) ≤ (2 * ceil (mul n p) + 1) * one := by
  constructor
  · exact ceil_le (round_le hi h)
  · have h1 : n * p < 2 ^ 24 * one := Nat.lt_of_le_of_lt h (Nat.mul_lt_mul_of_pos_right hi one_pos)
    have h2 := round_ge h1
    have h3 := le_ceil (mul n p)
    unfold mul at h3 ⊢
    rw [Nat.add_mul, Nat.one_mul, Nat.mul_assoc]
    omega

end AC.F32
