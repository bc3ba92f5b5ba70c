import Verif.Proofs.ForwardIndex
/-!
# C26: the forward index
-/
namespace AC.Props

/-- **C26**: for all lists of terms (one for each document, possibly empty or with repetitions), `iterator(d)` reports the
length of the list of document `d` and enumerates it, and `intersects(d, [b, e])` tells whether one of its terms is in
`[b, e]`. Nothing outside the data is read. -/
theorem C26_forward_index (numTerms : Nat) (lists : List (List Nat)) (h : FwdLists numTerms lists) (after : W) :
    ∃ fi, FwdIdx.build numTerms lists after = .ok fi ∧ fi.numDocs = lists.length ∧
      ∀ d (hd : d < lists.length),
        (∃ it, fi.iterator d = .ok it ∧ it.n = lists[d].length ∧ it.scan fi it.n = .ok lists[d]) ∧
        ∀ b e, ∃ v, fi.intersects d ⟨b, e⟩ = .ok v ∧ (v = true ↔ ∃ x ∈ lists[d], b ≤ x ∧ x ≤ e) := by
  obtain ⟨fi, f1, f2⟩ := FwdIdx.build_spec h after
  refine ⟨fi, f1, f2.docs, ?_⟩
  intro d hd
  constructor
  · obtain ⟨p, p1, p2⟩ := f2.at' d hd
    refine ⟨_, p1, rfl, ?_⟩
    have := FwdIt.scan_spec (n := lists[d].length) p2 (fun x hx => by
      have := h.each lists[d] (List.getElem_mem hd) x hx
      have := h.small; omega) lists[d].length 0 (by omega)
    rw [List.drop_zero] at this
    exact this
  · intro b e
    refine ⟨_, FwdIdx.intersects_spec f2 ⟨b, e⟩ d hd, ?_⟩
    simp [Range.contains, List.any_eq_true]

example : FwdLists 5 [[2, 1, 2], [], [5]] := ⟨by decide, by decide, by decide, by decide⟩

end AC.Props
