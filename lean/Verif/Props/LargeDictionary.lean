import Verif.Proofs.FcLarge
/-!
# C10: dictionaries of more than 4 GiB
-/
namespace AC.Props
open AC

/-- the characters of the terms at positions 0, 17, 34, … -/
def everySeventeenth (L : List Str) : Nat := ((List.range ((L.length + 16) / 17)).map fun b => (L.getD (17 * b) []).length).sum

/-- **C10 is false** for large dictionaries, whatever the number of terms: when every 17th term together take `2 ^ 32` bytes or more, building succeeds,
but there is a term whose extraction reads outside the dictionary. -/
theorem C10_false_large {L : List Str} (hlen : ∀ s ∈ L, s.length ≤ 128) (hbig : 2 ^ 32 ≤ everySeventeenth L) :
    ∃ d, FcDict.build L = .ok d ∧ d.size = L.length ∧
      ∃ i, i < L.length ∧ ∀ (out : Str) (base : Nat), FcDict.extract d (i + 1) out base = .error .oob := by
  obtain ⟨d, h1, h2, b, h3, h4⟩ := FC.build_large (p := 2 ^ 32) (E := Elem.byte) (lcpOf := FC.lcp) rfl hlen (by omega) hbig
  refine ⟨d, h1, h2, 17 * b, h3, fun out base => ?_⟩
  simp only [FcDict.extract, if_neg (Nat.succ_ne_zero _), Nat.add_sub_cancel, FC.extractAt, show 17 * b / 17 = b by omega, h4, M.error_bind]

/-- the number `i` in base 128 with digits from 1, in 128 characters -/
def wide (i : Nat) : Str := [1 + i / 2 ^ 28, 1 + i / 2 ^ 21 % 128, 1 + i / 2 ^ 14 % 128, 1 + i / 2 ^ 7 % 128, 1 + i % 128] ++ List.replicate 123 97

theorem wide_lt {i j : Nat} (h : i < j) : wide i < wide j := by
  unfold wide
  generalize List.replicate 123 97 = l
  simp only [List.cons_append, List.nil_append, List.cons_lt_cons_iff]
  rcases Nat.lt_or_ge (i / 2 ^ 28) (j / 2 ^ 28) with h1 | h1
  · exact Or.inl (by omega)
  refine Or.inr ⟨by omega, ?_⟩
  rcases Nat.lt_or_ge (i / 2 ^ 21) (j / 2 ^ 21) with h2 | h2
  · exact Or.inl (by omega)
  refine Or.inr ⟨by omega, ?_⟩
  rcases Nat.lt_or_ge (i / 2 ^ 14) (j / 2 ^ 14) with h3 | h3
  · exact Or.inl (by omega)
  refine Or.inr ⟨by omega, ?_⟩
  rcases Nat.lt_or_ge (i / 2 ^ 7) (j / 2 ^ 7) with h4 | h4
  · exact Or.inl (by omega)
  refine Or.inr ⟨by omega, ?_⟩
  exact Or.inl (by omega)

/-- the first `n` of them -/
def wideTerms (n : Nat) : List Str := (List.range n).map wide

theorem wide_length (i : Nat) : (wide i).length = 128 := by simp [wide]

theorem wideTerms_length (n : Nat) : (wideTerms n).length = n := by simp [wideTerms]

theorem wideTerms_sorted (n : Nat) : StrictSorted (wideTerms n) := by
  unfold StrictSorted wideTerms
  rw [List.pairwise_map]
  exact List.pairwise_lt_range.imp fun h => wide_lt h

theorem wideTerms_text {n : Nat} (hn : n ≤ 2 ^ 30) : ∀ s ∈ wideTerms n, IsText s := by
  intro s hs
  obtain ⟨i, hi, rfl⟩ := List.mem_map.mp hs
  rw [List.mem_range] at hi
  intro c hc
  simp only [wide, List.mem_append, List.mem_cons, List.not_mem_nil, or_false, List.mem_replicate] at hc
  omega

theorem wideTerms_len (n : Nat) : ∀ s ∈ wideTerms n, s.length ≤ 128 := by
  intro s hs
  obtain ⟨i, hi, rfl⟩ := List.mem_map.mp hs
  exact Nat.le_of_eq (wide_length i)

theorem wideTerms_chars (n : Nat) : ∀ m, 17 * m ≤ n + 16 → ((List.range m).map fun b => ((wideTerms n).getD (17 * b) []).length).sum = 128 * m
  | 0, _ => rfl
  | m + 1, hm => by
      have h : (wideTerms n)[17 * m]? = some (wide (17 * m)) := by
        rw [wideTerms, List.getElem?_map, List.getElem?_range (by omega)]; rfl
      rw [List.range_succ, List.map_append, List.sum_append_nat, wideTerms_chars n m (by omega)]
      simp only [List.map_cons, List.map_nil, List.sum_cons, List.sum_nil, List.getD_eq_getElem?_getD, h, Option.getD_some, wide_length]
      omega

/-- All but one of the first 17 * 2 ^ 25 of them meet the other conditions on the terms of a dictionary, and the hypotheses of `C10_false_large`. -/
example : ∃ n, n = 17 * 2 ^ 25 - 1 ∧ StrictSorted (wideTerms n) ∧ (∀ s ∈ wideTerms n, IsText s) ∧ (∀ s ∈ wideTerms n, s.length ≤ 128) ∧
    (wideTerms n).length < 2 ^ 32 - 1 ∧ (wideTerms n).length % 17 ≠ 0 ∧ 2 ^ 32 ≤ everySeventeenth (wideTerms n) := by
  obtain ⟨n, hn⟩ : ∃ n, n = 17 * 2 ^ 25 - 1 := ⟨_, rfl⟩
  refine ⟨n, hn, wideTerms_sorted n, wideTerms_text (by omega), wideTerms_len n, ?_, ?_, ?_⟩
  · rw [wideTerms_length]; omega
  · rw [wideTerms_length]; omega
  · rw [everySeventeenth, wideTerms_length, wideTerms_chars n _ (by omega)]
    omega

end AC.Props
