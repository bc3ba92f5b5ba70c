import Verif.Model.Installed
import Verif.Proofs.TestsSearch
import Verif.Props.TextPrefix
import Verif.Props.Tools
/-!
# The test of `locate_prefix` after the scripts
-/
namespace AC
open Spec Props

theorem pieces_joined : ∀ {c : List Str}, c ≠ [] → (∀ t ∈ c, space ∉ t) → pieces (joined c) = c
  | [], h, _ => absurd rfl h
  | [t], _, h => pieces_word (h t (by simp))
  | t :: t' :: ts, _, h => by
      rw [joined, show space = 32 from rfl, pieces_append_space, pieces_word (h t (by simp)), pieces_joined (by simp) (fun t ht => h t (List.mem_cons_of_mem _ ht))]; rfl

theorem joined_snoc : ∀ xs : List Str, ∃ s, ∀ w, joined (xs ++ [w]) = s ++ w
  | [] => ⟨[], fun w => rfl⟩
  | [x] => ⟨x ++ [space], fun w => by simp [joined]⟩
  | x :: y :: xs => by
      obtain ⟨s, hs⟩ := joined_snoc (y :: xs)
      refine ⟨x ++ space :: s, fun w => ?_⟩
      have := hs w
      simp only [List.cons_append] at this ⊢
      rw [joined, this, List.append_assoc, List.cons_append]

theorem lines_queryFile : ∀ {Q : List Str}, (∀ q ∈ Q, 10 ∉ q) → Lines (queryFile Q) Q
  | [], _ => .none
  | q :: Q, h => by
      have := Lines.next (h q (by simp)) (lines_queryFile (fun q hq => h q (List.mem_cons_of_mem _ hq)))
      rw [queryFile, List.flatMap_cons, List.append_assoc]
      exact this

theorem lines_textOf {L : List (Str × Str × List Str)} (h : ∀ l ∈ L, Line l) : Lines (Props.textOf L) (L.map (·.1)) := by
  have := lines_queryFile (Q := L.map (·.1)) (fun q hq => (lines_of h q hq).1)
  rw [queryFile, List.flatMap_map] at this
  exact this

theorem Tests.open_some {fs : List Str} (h : fs.length = 7) {n : Nat} (h1 : 1 ≤ n) (h2 : n ≤ 6) :
    Tests.openQueries (Pre.queryFileNames.zip fs) n = fs[n - 1]? := by
  match fs, h with
  | [a, b, c, d, e, f, g], _ =>
      rcases (by omega : n = 1 ∨ n = 2 ∨ n = 3 ∨ n = 4 ∨ n = 5 ∨ n = 6) with rfl | rfl | rfl | rfl | rfl | rfl <;> rfl

theorem Tests.open_none {fs : List Str} (h : fs.length = 7) : Tests.openQueries (Pre.queryFileNames.zip fs) 7 = none := by
  match fs, h with
  | [a, b, c, d, e, f, g], _ => rfl

/-! ## The queries made of completions -/

section
variable {C : Coll} (hC : ValidColl C) (hf : ∀ x, IsFirstTerm C x → x.length = 1)
include hC

/-- what the test asks, made of the text of a completion -/
theorem query_of {c : List Str} {d : Nat} (hc : (d, c) ∈ C) {x y : Nat} {q : Str} (h : Shortened x y (joined c) q) :
    ∃ t, c = completeTerms q ++ [t] ∧ lastTerm q <+: t ∧ squeeze q = q ∧ q <+: joined c := by
  have hne := hC.nonempty _ hc
  have hw := hC.words _ hc
  dsimp only at hne hw
  have hp := pieces_joined hne (fun t ht => (hw t ht).2.2)
  have hcm : completeTerms (joined c) = c.dropLast := by
    rw [completeTerms, hp, List.filter_eq_self]
    intro t ht
    have := (hw t (List.dropLast_subset _ ht)).1
    cases t with
    | nil => exact absurd rfl this
    | cons _ _ => rfl
  have hl : lastTerm (joined c) = c.getLast hne := by
    rw [lastTerm, hp, List.getLastD_eq_getLast?, List.getLast?_eq_some_getLast hne]; rfl
  have hcq : completeTerms q = c.dropLast := by rw [h.complete, hcm]
  have hce : c = completeTerms q ++ [c.getLast hne] := by rw [hcq]; exact (List.dropLast_concat_getLast hne).symm
  have hpre : lastTerm q <+: c.getLast hne := by rw [← hl]; exact h.last.beginning
  obtain ⟨s, hs⟩ := joined_snoc (completeTerms q)
  obtain ⟨s', e1, e2⟩ := h.same
  have hss : s' = s := by
    have h1 := hs (c.getLast hne)
    rw [← hce] at h1
    rw [hl, h1] at e1
    exact (List.append_cancel_right e1).symm
  have hsq : squeeze q = q := by
    rw [squeeze_joined, hs, ← hss]; exact e2.symm
  refine ⟨c.getLast hne, hce, hpre, hsq, ?_⟩
  rw [e2, e1, hl]
  exact (List.prefix_append_right_inj _).mpr hpre

omit hC in
include hf in
theorem lastOk_one (last : Str) : LastOk C last := by
  intro x hx hp
  have h1 := hf x hx
  have h2 := hp.length_le
  rcases Nat.eq_zero_or_pos last.length with h0 | h0
  · exact .inl (List.length_eq_zero_iff.mp h0)
  · exact .inr (hp.eq_of_length (by omega))

include hf in
theorem query_looksUp {c : List Str} {d : Nat} (hc : (d, c) ∈ C) {x y : Nat} {q : Str} (h : Shortened x y (joined c) q) : LooksUp C q := by
  obtain ⟨t, e1, e2, _, e4⟩ := query_of hC hc h
  have hw := hC.words _ hc
  dsimp only at hw
  refine ⟨fun b hb => Tests.joined_isText (fun t ht => (hw t ht).2.1) b (e4.subset hb), fun t' ht' => ⟨_, hc, by dsimp only; rw [e1]; simp [ht']⟩, t, ⟨_, hc, by
    dsimp only; rw [e1]; simp⟩, e2, fun hx => lastOk_one hf _ t hx e2⟩

include hf in
theorem query_passes {c : List Str} {d : Nat} (hc : (d, c) ∈ C) {x y : Nat} {q : Str} (h : Shortened x y (joined c) q) :
    Passes C q ↔ ∀ c0, IsFirstCompletion C c0 → q <+: joined c0 → ∃ x, FirstReached C (lastTerm q) x ∧ c0 = completeTerms q ++ [x] := by
  obtain ⟨t, e1, e2, e3, e4⟩ := query_of hC hc h
  have key : ∀ r ∈ C, q <+: joined r.2 ↔ PrefixFound C (completeTerms q) (lastTerm q) r.2 := fun r hr => by
    rw [PrefixFound_iff (lastOk_one hf _), textMatch_iff hC q r hr, TextMatch, e3]
  constructor
  · rintro ⟨_, _, h2⟩ c0 ⟨d0, h0⟩ hp
    exact ((h2 (d0, c0) (List.mem_of_mem_head? h0)).mp hp).2 ⟨d0, h0⟩
  · intro h0
    have key2 : ∀ r ∈ C, q <+: joined r.2 ↔ PrefixFound2 C (completeTerms q) (lastTerm q) r.2 := fun r hr => by
      rw [key r hr]
      exact ⟨fun hp => ⟨hp, fun hf => h0 _ hf ((key r hr).mpr hp)⟩, fun hp => hp.1⟩
    exact ⟨⟨⟨_, hc, (key _ hc).mp e4⟩, key⟩, ⟨⟨_, hc, (key2 _ hc).mp e4⟩, key2⟩⟩

end

end AC
