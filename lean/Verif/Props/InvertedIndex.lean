import Verif.Proofs.Intersection
import Verif.Proofs.StdLib
import Verif.Props.PostingLists
/-!
# C24, C23: the inverted index and the intersection of posting lists
-/
namespace AC.Props

/-- building an inverted index from one list of documents per term: the builder, then the index -/
def buildInverted (u : Nat) (lists : List (List Nat)) (after : W) : M InvIdx := do
  let b ← InvBuilder.mk' u lists
  b.build after

/-- **C24**: for all non-empty increasing lists of documents below `u`, the index can be built, and whatever the history of
calls on `iterator(t)`, the iterator is where the calls lead in the list given for term `t`, and its value is the element
there (or the number of documents at the end). The first documents of the lists are reported to the caller of the builder. -/
theorem C24_inverted_index (u : Nat) (lists : List (List Nat)) (h : InvLists u lists) (after : W) :
    ∃ ii, buildInverted u lists after = .ok ii ∧ ii.numTerms = lists.length ∧ ii.numDocs = u ∧
      ii.numIntegers = (lists.map List.length).sum ∧
      (∃ b, InvBuilder.mk' u lists = .ok b ∧ b.minimal.map some = lists.map List.head?) ∧
      ∀ t (ht : t < lists.length), ∃ it, ii.iterator t = .ok it ∧ it.off.n = lists[t].length ∧ it.pos = 0 ∧
        ∀ cs q, History lists[t] u cs 0 q →
          ∃ it', runCalls ii.data cs it = .ok it' ∧ it'.pos = q ∧ q ≤ lists[t].length ∧ it'.value = lists[t][q]?.getD u := by
  obtain ⟨b, e1, e2, e3⟩ := InvBuilder.build_spec h
  obtain ⟨ii, f1, f2⟩ := e3 after
  refine ⟨ii, ?_, f2.terms, f2.docs, f2.ints, ⟨b, e1, ?_⟩, ?_⟩
  · unfold buildInverted
    rw [e1]; exact f1
  · rw [e2, List.map_map]
    apply List.map_congr_left
    intro l hl
    have := (h.each l hl).1
    cases l with
    | nil => exact absurd rfl this
    | cons x xs => rfl
  · intro t ht
    obtain ⟨it, i1, i2⟩ := InvIdx.iterator_spec f2 t ht
    refine ⟨it, i1, i2.size, i2.pos, ?_⟩
    intro cs q hq
    obtain ⟨base, j1, j2, j3, j4⟩ := i2
    obtain ⟨it', k1, k2⟩ := runCalls_spec j1 j2 cs 0 q it j4 hq
    exact ⟨it', k1, k2.pos, k2.le, At.final k2⟩

example : InvLists 9 [[0, 3, 8], [3], [1, 3, 5, 8]] :=
  ⟨by decide, by decide, by decide, by decide⟩

/-- the documents that occur in the lists of all the terms (ids start at 1) -/
def inAllLists (u : Nat) (lists : List (List Nat)) (ids : List Nat) : List Nat :=
  (List.range u).filter (fun d => ids.all (fun id => (lists.getD (id - 1) []).contains d))

/-- **C23**: the intersection iterator over the lists of any terms (one or more, repetitions allowed) enumerates the documents
that occur in all of them, each once and in increasing order, for every implementation of `std::sort`. -/
theorem C23_intersection (std : StdLib) (u : Nat) (lists : List (List Nat)) (h : InvLists u lists) (after : W)
    (ids : List Nat) (hne : ids ≠ []) (hids : ∀ id ∈ ids, 1 ≤ id ∧ id ≤ lists.length) :
    ∃ ii s, buildInverted u lists after = .ok ii ∧ Inter.mk' std ii ids = .ok s ∧
      s.collect ii (u + 1) = .ok (inAllLists u lists ids) := by
  obtain ⟨b, e1, e2, e3⟩ := InvBuilder.build_spec h
  obtain ⟨ii, f1, f2⟩ := e3 after
  have hmem : ∀ d, d ∈ inAllLists u lists ids ↔ ∀ id ∈ ids, d ∈ lists.getD (id - 1) [] := by
    intro d
    unfold inAllLists
    simp only [List.mem_filter, List.mem_range, List.all_eq_true, List.contains_iff_mem]
    constructor
    · exact fun h => h.2
    · intro hd
      refine ⟨?_, hd⟩
      obtain ⟨id, hid⟩ := List.exists_mem_of_ne_nil _ hne
      obtain ⟨v1, v2⟩ := hids id hid
      have := hd id hid
      rw [List.getD_eq_getElem?_getD, List.getElem?_eq_getElem (by omega)] at this
      exact (h.each lists[id - 1] (List.getElem_mem (by omega))).2.2 d this
  obtain ⟨s, ls, g1, g2⟩ := Inter.mk'_spec std f2 ids hne hids (inAllLists u lists ids)
    (List.Pairwise.filter _ List.pairwise_lt_range) hmem
  refine ⟨ii, s, ?_, g1, ?_⟩
  · unfold buildInverted
    rw [e1]; exact f1
  · apply Inter.collect_spec _ _ _ _ g2
    have := List.length_filter_le (fun d => ids.all (fun id => (lists.getD (id - 1) []).contains d)) (List.range u)
    rw [List.length_range] at this
    unfold inAllLists; omega

example : inAllLists 9 [[0, 3, 8], [3], [1, 3, 5, 8]] [1, 3] = [3, 8] := by decide

end AC.Props
