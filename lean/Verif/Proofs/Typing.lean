import Verif.Spec.Typing
import Verif.Proofs.Installed
/-!
# Queries that are typed on
-/
namespace AC
open Spec

theorem squeezeFrom_append : ∀ (q w : Str) (b : Bool), ∃ b', squeezeFrom b (q ++ w) = squeezeFrom b q ++ squeezeFrom b' w
  | [], w, b => ⟨b, rfl⟩
  | c :: q, w, b => by
      rw [List.cons_append, squeezeFrom, squeezeFrom]
      by_cases hc : c = space
      · obtain ⟨b', e⟩ := squeezeFrom_append q w true
        rw [if_pos hc, if_pos hc]
        cases b
        · exact ⟨b', by simp [e]⟩
        · exact ⟨b', by simp [e]⟩
      · obtain ⟨b', e⟩ := squeezeFrom_append q w false
        rw [if_neg hc, if_neg hc]
        exact ⟨b', by simp [e]⟩

theorem TextMatch.of_append {q w : Str} {c : List Str} (h : TextMatch (q ++ w) c) : TextMatch q c := by
  obtain ⟨b, e⟩ := squeezeFrom_append q w true
  exact List.IsPrefix.trans ⟨squeezeFrom b w, e.symm⟩ h

/-- a text of which a completion is left when the superfluous spaces are removed -/
theorem terms_of_squeeze {q : Str} {c : List Str} (hne : c ≠ []) (hw : ∀ t ∈ c, space ∉ t) (h : squeeze q = joined c) : completeTerms q ++ [lastTerm q] = c := by
  rw [squeeze_joined] at h
  have hs : ∀ t ∈ completeTerms q ++ [lastTerm q], space ∉ t := by
    intro t ht
    refine pieces_no_space q t ?_
    rcases List.mem_append.mp ht with ht | ht
    · exact List.dropLast_subset _ (List.mem_filter.mp ht).1
    · rw [List.mem_singleton.mp ht, lastTerm, List.getLastD_eq_getLast?, List.getLast?_eq_some_getLast (pieces_ne_nil q)]
      exact List.getLast_mem _
  rw [← pieces_joined (by simp) hs, h, pieces_joined hne hw]

/-- the text of a completion has no superfluous spaces -/
theorem squeeze_completion {c : List Str} (hne : c ≠ []) (h1 : ∀ t ∈ c, t ≠ []) (hw : ∀ t ∈ c, space ∉ t) : squeeze (joined c) = joined c := by
  rw [squeeze_joined, completeTerms, lastTerm, pieces_joined hne hw, List.getLastD_eq_getLast?, List.getLast?_eq_some_getLast hne, Option.getD_some,
    List.filter_eq_self.mpr, List.dropLast_concat_getLast]
  intro t ht
  cases t with
  | nil => exact absurd rfl (h1 _ (List.dropLast_subset _ ht))
  | cons _ _ => rfl

theorem pieces_append_word : ∀ (q : Str) {u : Str}, space ∉ u → pieces (q ++ u) = (pieces q).dropLast ++ [lastTerm q ++ u]
  | q, u, hu => by
      rcases space_cases q with hq | ⟨s, t, rfl, ht⟩
      · rw [pieces_word hq, lastTerm_word hq, pieces_word (by
          intro hm
          rcases List.mem_append.mp hm with hm | hm
          · exact hq hm
          · exact hu hm)]
        rfl
      · rw [lastTerm_atSpace ht, List.append_assoc, List.cons_append, pieces_append_space, pieces_append_space, pieces_word ht, pieces_word (t := t ++ u) (by
          intro hm
          rcases List.mem_append.mp hm with hm | hm
          · exact ht hm
          · exact hu hm), List.dropLast_concat]

theorem typed_word (q : Str) {u : Str} (hu : space ∉ u) : completeTerms (q ++ u) = completeTerms q ∧ lastTerm (q ++ u) = lastTerm q ++ u := by
  unfold completeTerms
  refine ⟨by rw [pieces_append_word q hu, List.dropLast_concat], ?_⟩
  rw [lastTerm, pieces_append_word q hu]
  simp

theorem typed_space (q : Str) {u : Str} (hu : space ∉ u) (v : Str) :
    ∃ T, completeTerms (q ++ (u ++ space :: v)) = completeTerms q ++ ([lastTerm q ++ u].filter (fun p => !p.isEmpty) ++ T) := by
  refine ⟨(pieces v).dropLast.filter (fun p => !p.isEmpty), ?_⟩
  unfold completeTerms
  rw [← List.append_assoc, show space = 32 from rfl, pieces_append_space, pieces_append_word q hu, List.dropLast_append_of_ne_nil (pieces_ne_nil v), List.filter_append,
    List.filter_append, List.append_assoc]

theorem first_space : ∀ w : Str, space ∉ w ∨ ∃ u v, w = u ++ space :: v ∧ space ∉ u
  | [] => .inl (by simp)
  | c :: w => by
      by_cases hc : c = space
      · exact .inr ⟨[], w, by rw [hc]; rfl, by simp⟩
      · rcases first_space w with h | ⟨u, v, rfl, h⟩
        · exact .inl (by simp [h, Ne.symm hc])
        · exact .inr ⟨c :: u, v, rfl, by simp [h, Ne.symm hc]⟩

theorem reaches_ok {C : Coll} {last x : Str} (h : LastOk C last) (hp : last <+: x) : Reaches C last x := ⟨hp, fun hf => h x hf hp⟩

theorem conjFound_typed {C : Coll} {q w : Str} {c : List Str} (hl : LastOk C (lastTerm q)) (hk : ∀ t ∈ completeTerms (q ++ w), IsTerm C t)
    (h : ConjFound C (completeTerms (q ++ w)) (lastTerm (q ++ w)) c) : ConjFound C (completeTerms q) (lastTerm q) c := by
  obtain ⟨h1, x, hx, h2⟩ := h
  rcases first_space w with hw | ⟨u, v, rfl, hu⟩
  · obtain ⟨e1, e2⟩ := typed_word q hw
    rw [e1] at h1
    rw [e2] at h2
    exact ⟨h1, x, hx, reaches_ok hl ((List.prefix_append _ _).trans h2.1)⟩
  · obtain ⟨T, e⟩ := typed_space q hu v
    rw [e] at h1 hk
    refine ⟨fun t ht => h1 t (List.mem_append_left _ ht), ?_⟩
    by_cases he : lastTerm q ++ u = []
    · rw [(List.append_eq_nil_iff.mp he).1]
      exact ⟨x, hx, List.nil_prefix, fun _ => .inl rfl⟩
    · have hm : lastTerm q ++ u ∈ completeTerms q ++ ([lastTerm q ++ u].filter (fun p => !p.isEmpty) ++ T) := by
        refine List.mem_append_right _ (List.mem_append_left _ (List.mem_filter.mpr ⟨by simp, ?_⟩))
        cases h : lastTerm q ++ u with
        | nil => exact absurd h he
        | cons _ _ => rfl
      exact ⟨_, h1 _ hm (hk _ hm), reaches_ok hl (List.prefix_append _ _)⟩

/-- what the index finds it offers -/
theorem _root_.AC.Spec.Best.offered {C : Coll} {P : List Str → Prop} {k : Nat} {E : Coll} (b : Spec.Best C P k E) {r : Nat × List Str} (hr : r ∈ C) (hp : P r.2) :
    Offered k (E.map shown) (shown r) := by
  by_cases hm : r ∈ E
  · exact .inl (List.mem_map.mpr ⟨r, hm, rfl⟩)
  · obtain ⟨f1, f2⟩ := b.complete r hr hp hm
    refine .inr ⟨by rw [List.length_map]; exact f1, ?_⟩
    rintro f hf
    obtain ⟨r', hr', rfl⟩ := List.mem_map.mp hf
    exact f2 r' hr'

end AC
