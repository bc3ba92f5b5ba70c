import Verif.Proofs.WebPage
/-!
# C65: the suggestions on the web page

`Spec.Highlights` is the property. It holds for ordinary words (`C65_highlights_partial`) and for an empty field and texts without `<` and `&`
(`C65_empty_partial`). What is missing fails, by the theorems that follow.
-/
namespace AC
namespace Props
open Spec Page

theorem C65_highlights_partial (canon : Nat → Nat) (value cur : Str) (hcur : cur ≠ []) (hw : ∀ c ∈ cur, special c = false)
    (h1 : ¬ openTag <:+: value) (h2 : ¬ closeTag <:+: value) : Highlights canon value cur (formatResult canon value cur) := by
  obtain ⟨k1, k2⟩ := keywords cur
  have hne : split (trim cur) ≠ [] := split_ne_nil _ _ _
  have hplain : ∀ w ∈ split (trim cur), Plain w := by
    intro w hwm c hc
    have := hw c (split_mem_sub hwm hc)
    refine ⟨?_, ?_, ?_⟩ <;> (rintro rfl; exact absurd this (by decide))
  refine ⟨(toks canon (split (trim cur)) (value.length + 1) value).flatMap Tok.final, scan canon (split (trim cur)) (value.length + 1) value,
    ?_, ?_, scan_text _ _ _ _, ?_, ?_⟩
  · unfold formatResult
    rw [if_neg hcur, compile_join hne hplain]
    simp only [M.ok_bind]
    rw [mark_toks canon hne, escape_toks, restore_toks _ _ (toks_clean canon _ _ h1 h2) (Nat.le_refl _)]
  · unfold displayed
    rw [shows_toks _ _ _ (Nat.le_refl _), paint_toks]
  · intro w hw i ho
    have hm := (k1 w).mpr hw
    refine scan_meets canon ?_ _ _ (Nat.lt_succ_self _) w hm.1 i ho
    rcases k2 with k2 | k2
    · rw [k2] at hm
      exact absurd (by simpa using hm.1) hm.2
    · exact k2
  · intro j hj
    obtain ⟨w, w1, w2, hrest⟩ := scan_only canon _ _ _ (Nat.lt_succ_self _) j hj
    exact ⟨w, (k1 w).mp ⟨w1, w2⟩, hrest⟩

/-- `B<a&ab` when `a` is typed between two spaces -/
example : Highlights id [66, 60, 97, 38, 97, 98] [32, 97, 32] (formatResult id [66, 60, 97, 38, 97, 98] [32, 97, 32]) :=
  C65_highlights_partial _ _ _ (by decide) (by decide) (by decide) (by decide)

theorem C65_empty_partial (canon : Nat → Nat) (value : Str) (h1 : 60 ∉ value) (h2 : 38 ∉ value) :
    Highlights canon value [] (formatResult canon value []) := by
  refine ⟨value, value.map (·, false), by unfold formatResult; rw [if_pos rfl], shows_plain _ _ _ (Nat.le_refl _) h1 h2, ?_, ?_, ?_⟩
  · simp [Function.comp_def]
  · rintro w ⟨h, _, a, b, e, _⟩
    have := congrArg List.length e
    have : w = [] := List.length_eq_zero_iff.mp (by simp at this; omega)
    exact absurd this h
  · intro j hj
    rw [List.map_map, List.getElem?_map] at hj
    cases h : value[j]? with
    | none => rw [h] at hj; simp at hj
    | some x => rw [h] at hj; simp at hj

example : 60 ∉ [97, 34, 62] ∧ 38 ∉ [97, 34, 62] := by decide

/-- With an empty field the text of the suggestion becomes HTML as it is: a text with `<` is not shown. -/
theorem C65_empty_not_escaped (canon : Nat → Nat) (value : Str) (h : 60 ∈ value) : ¬ Highlights canon value [] (formatResult canon value []) := by
  rintro ⟨html, out, e, hs, ht, _⟩
  unfold formatResult at e
  rw [if_pos rfl] at e
  cases e
  have hl := shows_length _ _ _ _ hs (Nat.le_refl _)
  have hc : 0 < value.countP (· == 60) := List.countP_pos_iff.mpr ⟨60, h, by decide⟩
  have := congrArg List.length ht
  rw [List.length_map] at this
  omega

/-- `<b>` -/
example : 60 ∈ [60, 98, 62] := by decide

/-- Typing an opening parenthesis and no closing one raises an exception, whatever the suggestion. -/
theorem C65_parenthesis (canon : Nat → Nat) (value cur : Str) (h1 : 40 ∈ cur) (h2 : 41 ∉ cur) (_h3 : ∀ c ∈ cur, isOperator c = false) :
    formatResult canon value cur = .error .thrown := by
  unfold formatResult
  rw [if_neg (by rintro rfl; simp at h1), compile_open]
  · rfl
  · rw [mem_join (by decide)]
    exact mem_splitLoop (by decide) _ [] false (by simp) (by simpa using mem_trim (by decide) h1)
  · rw [mem_join (by decide)]
    rintro ⟨w, hw, hc⟩
    exact h2 (split_mem_sub hw hc)

/-- `f(x` -/
example : 40 ∈ [102, 40, 120] ∧ 41 ∉ [102, 40, 120] ∧ ∀ c ∈ [102, 40, 120], isOperator c = false := by decide

/-- Typing `a)|(b`, the text `b` is not shown. -/
theorem C65_group_lost : ¬ Highlights id [98] [97, 41, 124, 40, 98] (formatResult id [98] [97, 41, 124, 40, 98]) := by
  have e : formatResult id [98] [97, 41, 124, 40, 98] = .ok (openTag ++ closeTag) := by decide +kernel
  rintro ⟨html, out, e', hs, ht, _⟩
  rw [e] at e'
  cases e'
  have : displayed (openTag ++ closeTag) = some [] := by decide +kernel
  rw [this] at hs
  cases hs
  simp at ht

/-- The text `<strong>` is not shown, when `x` is typed. -/
theorem C65_tag_lost : ¬ Highlights id openTag [120] (formatResult id openTag [120]) := by
  have e : formatResult id openTag [120] = .ok openTag := by decide +kernel
  rintro ⟨html, out, e', hs, ht, _⟩
  rw [e] at e'
  cases e'
  have : displayed openTag = some [] := by decide +kernel
  rw [this] at hs
  cases hs
  simp [openTag] at ht

end Props
end AC
