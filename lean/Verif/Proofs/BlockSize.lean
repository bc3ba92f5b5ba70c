import Verif.Model.BlockSize
import Verif.Proofs.Float32
/-!
# The block size: bounds of the rounding errors
-/
namespace AC

namespace F32

/-- the relative error of rounding is at most `2^-24` -/
theorem round_error (v : Nat) : 2 ^ 24 * round v ≤ (2 ^ 24 + 1) * v ∧ (2 ^ 24 - 1) * v ≤ 2 ^ 24 * round v := by
  obtain ⟨s, j, _, h1, h2, h3, _, h4⟩ := round_near v
  rcases h3 with rfl | h3
  · rw [h4 rfl]; omega
  · generalize round v = r at *
    generalize 2 ^ s = t at *
    omega

end F32

theorem blockSize_bounds {u c m : Nat} (h : blockSize u c = .ok m) :
    0 < c ∧ c ≤ 2 ^ 149 ∧ m * 2 ^ 149 * 2 ^ 48 ≤ u * c * (2 ^ 24 + 1) ^ 2 ∧ u * c * (2 ^ 24 - 1) ^ 2 < (m + 1) * 2 ^ 149 * 2 ^ 48 := by
  unfold blockSize at h
  by_cases hc : !(decide (0 < c) && decide (c ≤ F32.one))
  · rw [if_pos hc] at h; cases h
  · rw [if_neg hc] at h
    have hc : 0 < c ∧ c ≤ F32.one := by simpa [Nat.pos_iff_ne_zero] using hc
    obtain ⟨c1, c2⟩ := hc
    rw [F32.one_eq] at c2
    injection h with h
    unfold F32.trunc F32.mul F32.ofNat at h
    obtain ⟨a1, a2⟩ := F32.round_error u
    obtain ⟨b1, b2⟩ := F32.round_error (F32.round u * c)
    generalize F32.round (F32.round u * c) = v at *
    generalize F32.round u = r at *
    refine ⟨c1, c2, ?_, ?_⟩
    · have h1 : m * 2 ^ 149 ≤ v := by
        rw [← h, ← F32.one_eq]
        exact Nat.div_mul_le_self v F32.one
      have h2 := Nat.mul_le_mul_right (2 ^ 48) h1
      have h3 := Nat.mul_le_mul_right c a1
      refine Nat.le_trans h2 ?_
      generalize 2 ^ 149 = z at *
      have e1 : v * 2 ^ 48 = 2 ^ 24 * (2 ^ 24 * v) := by omega
      have e2 : (2 ^ 24 + 1) * (r * c) * 2 ^ 24 = (2 ^ 24 + 1) * (2 ^ 24 * r * c) := by
        rw [Nat.mul_assoc, Nat.mul_comm (r * c), Nat.mul_assoc (2 ^ 24) r c]
      have e3 : u * c * (2 ^ 24 + 1) ^ 2 = (2 ^ 24 + 1) * ((2 ^ 24 + 1) * u * c) := by
        rw [Nat.pow_two, Nat.mul_comm (u * c), Nat.mul_assoc, Nat.mul_assoc (2 ^ 24 + 1) u c]
      rw [e1, e3]
      have h4 := Nat.mul_le_mul_left (2 ^ 24) b1
      have h5 := Nat.mul_le_mul_left (2 ^ 24 + 1) h3
      rw [Nat.mul_comm (2 ^ 24) ((2 ^ 24 + 1) * (r * c)), e2] at h4
      exact Nat.le_trans h4 h5
    · have h1 : v < (m + 1) * 2 ^ 149 := by
        rw [← h, ← F32.one_eq]
        have := Nat.div_add_mod v F32.one
        have h2 := Nat.mod_lt v F32.one_pos
        rw [Nat.add_mul, Nat.one_mul, Nat.mul_comm]
        omega
      have h2 : v * 2 ^ 48 < (m + 1) * 2 ^ 149 * 2 ^ 48 := Nat.mul_lt_mul_of_pos_right h1 (Nat.two_pow_pos _)
      refine Nat.lt_of_le_of_lt ?_ h2
      have h3 := Nat.mul_le_mul_right c a2
      have e1 : v * 2 ^ 48 = 2 ^ 24 * (2 ^ 24 * v) := by omega
      have e2 : (2 ^ 24 - 1) * (r * c) * 2 ^ 24 = (2 ^ 24 - 1) * (2 ^ 24 * r * c) := by
        rw [Nat.mul_assoc, Nat.mul_comm (r * c), Nat.mul_assoc (2 ^ 24) r c]
      have e3 : u * c * (2 ^ 24 - 1) ^ 2 = (2 ^ 24 - 1) * ((2 ^ 24 - 1) * u * c) := by
        rw [Nat.pow_two, Nat.mul_comm (u * c), Nat.mul_assoc, Nat.mul_assoc (2 ^ 24 - 1) u c]
      rw [e1, e3]
      have h4 := Nat.mul_le_mul_left (2 ^ 24) b2
      have h5 := Nat.mul_le_mul_left (2 ^ 24 - 1) h3
      rw [Nat.mul_comm (2 ^ 24) ((2 ^ 24 - 1) * (r * c)), e2] at h4
      exact Nat.le_trans h5 h4

theorem blockSize_ok {u c : Nat} (h1 : 0 < c) (h2 : c ≤ 2 ^ 149) : ∃ m, blockSize u c = .ok m := by
  refine ⟨_, if_neg ?_⟩
  rw [F32.one_eq]
  simp only [h1, h2, decide_true, Bool.and_self, Bool.not_true, Bool.false_eq_true, not_false_eq_true]

theorem blockSize_thrown {u c : Nat} (h : c = 0 ∨ 2 ^ 149 < c) : blockSize u c = .error .thrown := by
  refine if_pos ?_
  rw [F32.one_eq]
  rcases h with rfl | h
  · rfl
  · have : ¬ c ≤ 2 ^ 149 := Nat.not_le_of_lt h
    simp only [this, decide_false, Bool.and_false, Bool.not_false]

end AC
