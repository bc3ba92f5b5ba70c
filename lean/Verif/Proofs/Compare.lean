import Verif.Model.Compare
/-!
# Lemmas on comparisons
-/
namespace AC

theorem List.nil_lt_iff' {b : List Nat} : ([] : List Nat) < b ↔ b ≠ [] := by
  cases b <;> simp

theorem strncmp_spec : ∀ (l r : Str), IsText l → IsText r →
    let c := byteCompare l r
    (c < 0 ↔ l < r) ∧ (c = 0 ↔ l = r) ∧ (0 < c ↔ r < l)
  | [], [], _, _ => by simp [byteCompare, strncmp]
  | [], b :: bs, _, _ => by
      simp [byteCompare, strncmp]; omega
  | a :: as, [], _, _ => by
      simp [byteCompare, strncmp]; omega
  | a :: as, b :: bs, hl, hr => by
      have hl' : IsText as := fun c h => hl c (List.mem_cons_of_mem _ h)
      have hr' : IsText bs := fun c h => hr c (List.mem_cons_of_mem _ h)
      have ha : 0 < a := (hl a (by simp)).1
      have ih := strncmp_spec as bs hl' hr'
      have hstep : byteCompare (a :: as) (b :: bs) =
          if a < b then -1 else if b < a then 1 else byteCompare as bs := by
        have e : ∀ x y : Nat, ((x + 1 : Nat) : Int) - ((y + 1 : Nat) : Int) = (x : Int) - (y : Int) := by
          intro x y; omega
        simp only [byteCompare, List.length_cons, Nat.add_min_add_right, strncmp, e]
        by_cases h1 : a < b
        · simp [h1]
        · by_cases h2 : b < a
          · simp [h1, h2]
          · simp [h1, h2, Nat.pos_iff_ne_zero.mp ha]
      simp only [hstep]
      by_cases h1 : a < b
      · simp [h1, List.cons_lt_cons_iff]; omega
      · by_cases h2 : b < a
        · simp [h1, h2, List.cons_lt_cons_iff]; omega
        · have : a = b := by omega
          subst this
          simpa [List.cons_lt_cons_iff] using ih

theorem byteCompareN_spec : ∀ (l p : Str), IsText l → IsText p →
    let c := byteCompareN l p p.length
    (c < 0 ↔ l < p) ∧ (c = 0 ↔ p <+: l) ∧ (0 < c ↔ (p < l ∧ ¬ p <+: l))
  | l, [], _, _ => by simp [byteCompareN, strncmp]
  | [], b :: bs, _, _ => by
      simp [byteCompareN, strncmp]; omega
  | a :: as, b :: bs, hl, hr => by
      have hl' : IsText as := fun c h => hl c (List.mem_cons_of_mem _ h)
      have hr' : IsText bs := fun c h => hr c (List.mem_cons_of_mem _ h)
      have ha : 0 < a := (hl a (by simp)).1
      have ih := byteCompareN_spec as bs hl' hr'
      have hstep : byteCompareN (a :: as) (b :: bs) (b :: bs).length =
          if a < b then -1 else if b < a then 1 else byteCompareN as bs bs.length := by
        simp only [byteCompareN, List.length_cons, Nat.add_min_add_right, strncmp]
        by_cases h1 : a < b
        · simp [h1]
        · by_cases h2 : b < a
          · simp [h1, h2]
          · simp only [h1, h2, Nat.pos_iff_ne_zero.mp ha, if_false]
            split
            · rfl
            · omega
      simp only [hstep]
      by_cases h1 : a < b
      · have : a ≠ b := by omega
        simp [h1, List.cons_lt_cons_iff, List.cons_prefix_cons]; omega
      · by_cases h2 : b < a
        · have : a ≠ b := by omega
          simp [h1, h2, List.cons_lt_cons_iff, List.cons_prefix_cons]; omega
        · have : a = b := by omega
          subst this
          simpa [List.cons_lt_cons_iff, List.cons_prefix_cons] using ih

theorem idsCompare_spec : ∀ (l r : Ids),
    let c := idsCompare l r
    (c < 0 ↔ l < r) ∧ (c = 0 ↔ l = r) ∧ (0 < c ↔ r < l)
  | [], [] => by simp [idsCompare]
  | [], b :: bs => by simp [idsCompare]; omega
  | a :: as, [] => by simp [idsCompare]; omega
  | a :: as, b :: bs => by
      have ih := idsCompare_spec as bs
      simp only [idsCompare]
      by_cases h1 : a < b
      · simp [h1, List.cons_lt_cons_iff]; omega
      · by_cases h2 : b < a
        · simp [h1, h2, List.cons_lt_cons_iff]; omega
        · have : a = b := by omega
          subst this
          simpa [List.cons_lt_cons_iff] using ih

theorem idsCompareN_spec : ∀ (l p : Ids),
    let c := idsCompareN l p p.length
    (c < 0 ↔ l < p) ∧ (c = 0 ↔ p <+: l) ∧ (0 < c ↔ (p < l ∧ ¬ p <+: l))
  | l, [] => by simp [idsCompareN]
  | [], b :: bs => by simp [idsCompareN]
  | a :: as, b :: bs => by
      have ih := idsCompareN_spec as bs
      simp only [idsCompareN, List.length_cons]
      by_cases h1 : a < b
      · have : a ≠ b := by omega
        simp [h1, List.cons_lt_cons_iff, List.cons_prefix_cons]; omega
      · by_cases h2 : b < a
        · have : a ≠ b := by omega
          simp [h1, h2, List.cons_lt_cons_iff, List.cons_prefix_cons]; omega
        · have : a = b := by omega
          subst this
          simpa [List.cons_lt_cons_iff, List.cons_prefix_cons] using ih

end AC
