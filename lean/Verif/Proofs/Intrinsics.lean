import Verif.Proofs.WordMisc
import Verif.Proofs.BitCount
/-!
# The versions of the operations on words with `USE_INTRINSICS` and `USE_PDEP`
-/
namespace AC
namespace Util

theorem ff_bit (j : Nat) : (0xFF : W).getLsbD j = decide (j < 8) := by
  by_cases hj : j < 64
  · have : ∀ j : Fin 64, (0xFF : W).getLsbD j.val = decide (j.val < 8) := by decide +kernel
    exact this ⟨j, hj⟩
  · rw [BitVec.getLsbD_of_ge _ _ (by omega)]
    exact (decide_eq_false (by omega)).symm

theorem shiftIn_bit (x : W) : ∀ (n i : Nat), i < 64 →
    ((List.range n).foldl (fun (r : W) i => (r <<< 8) ||| ((x >>> (8 * i)) &&& 0xFF)) 0).getLsbD i =
      (decide (i < 8 * n) && x.getLsbD (8 * (n - 1 - i / 8) + i % 8))
  | 0, i, _ => by simp
  | n + 1, i, hi => by
      rw [List.range_succ, List.foldl_append, List.foldl_cons, List.foldl_nil, BitVec.getLsbD_or, BitVec.getLsbD_shiftLeft,
        BitVec.getLsbD_and, BitVec.getLsbD_ushiftRight, ff_bit, decide_eq_true hi, shiftIn_bit x n (i - 8) (by omega)]
      by_cases h8 : i < 8
      · rw [decide_eq_true h8, decide_eq_true (show i < 8 * (n + 1) by omega),
          show 8 * (n + 1 - 1 - i / 8) + i % 8 = 8 * n + i by omega]
        simp
      · rw [decide_eq_false h8, show 8 * (n - 1 - (i - 8) / 8) + (i - 8) % 8 = 8 * (n + 1 - 1 - i / 8) + i % 8 by omega,
          show decide (i - 8 < 8 * n) = decide (i < 8 * (n + 1)) from decide_eq_decide.mpr (by omega)]
        simp

theorem byteswap64_eq (x : W) : byteswap64 x = reverseBytes x := by
  apply BitVec.eq_of_getLsbD_eq
  intro i hi
  rw [reverseBytes_bit x hi]
  unfold byteswap64
  rw [shiftIn_bit x 8 i hi, decide_eq_true (by omega), Bool.true_and,
    show 8 * (8 - 1 - i / 8) + i % 8 = 56 - 8 * (i / 8) + i % 8 by omega]

theorem popcnt_eq (x : W) : popcnt x = x.popcount := by
  rw [W.popcount_eq]
  unfold popcnt
  have : ∀ n, (List.range n).foldl (fun r i => r + (x.getLsbD i).toNat) 0 = cnt x.getLsbD n := by
    intro n
    induction n with
    | zero => rfl
    | succ n ih => rw [List.range_succ, List.foldl_append, ih]; rfl
  exact this 64

theorem pdepLoop_bit (src mask : W) : ∀ (n m : Nat) (dest : W), m + n ≤ 64 → ∀ p,
    (pdepLoop src mask n m (cnt mask.getLsbD m) dest).getLsbD p =
      (dest.getLsbD p || (decide (m ≤ p ∧ p < m + n) && mask.getLsbD p && src.getLsbD (cnt mask.getLsbD p)))
  | 0, m, dest, _, p => by
      rw [decide_eq_false (by omega)]
      simp [pdepLoop]
  | n + 1, m, dest, h, p => by
      have ih := fun d => pdepLoop_bit src mask n (m + 1) d (by omega) p
      rw [cnt_succ] at ih
      unfold pdepLoop
      cases hm : mask.getLsbD m with
      | false =>
          rw [hm] at ih
          rw [if_neg (by simp)]
          rw [show cnt mask.getLsbD m + false.toNat = cnt mask.getLsbD m from rfl] at ih
          rw [ih]
          by_cases hp : p = m
          · subst hp; simp [hm]
          · rw [show decide (m + 1 ≤ p ∧ p < m + 1 + n) = decide (m ≤ p ∧ p < m + (n + 1)) from decide_eq_decide.mpr (by omega)]
      | true =>
          rw [hm] at ih
          rw [if_pos rfl]
          rw [show cnt mask.getLsbD m + true.toNat = cnt mask.getLsbD m + 1 from rfl] at ih
          rw [ih]
          by_cases hp : p = m
          · subst hp
            rw [decide_eq_false (by omega), decide_eq_true (by omega), hm]
            cases hs : src.getLsbD (cnt mask.getLsbD p)
            · simp
            · simp; omega
          · rw [show decide (m + 1 ≤ p ∧ p < m + 1 + n) = decide (m ≤ p ∧ p < m + (n + 1)) from decide_eq_decide.mpr (by omega)]
            congr 1
            split
            · rw [BitVec.getLsbD_or, BitVec.getLsbD_shiftLeft]
              have : (1 : W).getLsbD (p - m) = decide (p - m = 0) := by simp
              rw [this]
              by_cases h1 : p < m
              · simp [h1]
              · rw [decide_eq_false (show ¬ p - m = 0 by omega)]; simp
            · rfl

theorem pdep_bit (src mask : W) (p : Nat) : (pdep src mask).getLsbD p = (mask.getLsbD p && src.getLsbD (cnt mask.getLsbD p)) := by
  have h := pdepLoop_bit src mask 64 0 0 (by omega) p
  unfold pdep
  rw [show cnt mask.getLsbD 0 = 0 from rfl] at h
  rw [h]
  by_cases hp : p < 64
  · rw [decide_eq_true (by omega)]; simp
  · rw [BitVec.getLsbD_of_ge mask p (by omega)]; simp

theorem one_shift_bit (k : Nat) (hk : k < 64) (j : Nat) : ((1 : W) <<< k).getLsbD j = decide (j = k) := by
  rw [BitVec.getLsbD_shiftLeft]
  by_cases hj : j < k
  · rw [decide_eq_true hj, decide_eq_false (show ¬ j = k by omega)]; simp
  · by_cases h2 : j = k
    · subst h2; simp; omega
    · have : (1 : W).getLsbD (j - k) = decide (j - k = 0) := by simp
      rw [this, decide_eq_false (show ¬ j - k = 0 by omega), decide_eq_false h2]; simp

theorem pdep_select (x : W) (k : Nat) (hk : k < 64) (p : Nat) :
    (pdep ((1 : W) <<< k) x).getLsbD p = true ↔ IsSelect x.getLsbD k p := by
  rw [pdep_bit, one_shift_bit k hk]
  unfold IsSelect
  simp

theorem selectPdep_spec (x : W) {k : Nat} (hk : k < x.popcount) : selectPdep x k = .ok (x.select k) := by
  have h64 : x.popcount ≤ 64 := by rw [W.popcount_eq]; exact cnt_le _ _
  obtain ⟨h1, h2⟩ := W.select_eq x k hk
  unfold selectPdep
  rw [if_neg (by omega)]
  congr 1
  unfold tzcnt
  cases h : (List.range 64).find? (fun i => (pdep ((1 : W) <<< k) x).getLsbD i) with
  | none =>
      have := find_range_none h (x.select k) h1
      rw [(pdep_select x k (by omega) _).mpr h2] at this
      cases this
  | some c =>
      obtain ⟨g1, g2, g3⟩ := find_range_some h
      exact ((pdep_select x k (by omega) c).mp g2).unique h2

theorem selectPdep_beyond (x : W) {k : Nat} (hk : x.popcount ≤ k) (hk2 : k < 64) : selectPdep x k = .ok 64 := by
  unfold selectPdep
  rw [if_neg (by omega)]
  congr 1
  unfold tzcnt
  cases h : (List.range 64).find? (fun i => (pdep ((1 : W) <<< k) x).getLsbD i) with
  | none => rfl
  | some c =>
      obtain ⟨g1, g2, _⟩ := find_range_some h
      have := ((pdep_select x k (by omega) c).mp g2).lt_cnt g1
      rw [W.popcount_eq] at hk
      omega

theorem popcountOf_eq (b : Bool) (x : W) : popcountOf b x = x.popcount := by
  unfold popcountOf
  split
  · exact popcnt_eq x
  · exact popcount_spec x

theorem selectInWordOf_eq (b c : Bool) (x : W) {k : Nat} (hk : k < x.popcount) :
    selectInWordOf b c x k = .ok (x.select k) := by
  unfold selectInWordOf
  split
  · exact selectPdep_spec x hk
  · rw [← selectInWord_spec x hk]
    simp only [popcountOf_eq, ← popcount_spec]
    unfold selectInWord
    have : ∀ y : W, (popcount y * 8).toNat = (popcount y).toNat * 8 := by
      intro y
      have h1 := popcount_spec y
      have h64 : y.popcount ≤ 64 := by rw [W.popcount_eq]; exact cnt_le _ _
      rw [BitVec.toNat_mul, show (8 : W).toNat = 8 from rfl, Nat.mod_eq_of_lt (by omega)]
    simp only [this]

theorem reverseBitsOf_eq (b : Bool) (x : W) : reverseBitsOf b x = reverseBits x := by
  unfold reverseBitsOf reverseBits reverseBytesOf
  cases b
  · rfl
  · simp only [if_true, byteswap64_eq]

end Util
end AC
