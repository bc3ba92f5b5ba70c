import Verif.Props.Saved
import Verif.Proofs.Preprocess
/-!
# C06: the results of type 4 depend on the standard library

When a completion matches a query, and some of its terms are in several of the blocks that are looked at, the search asks the block that is on top of the heap,
and only this one. Which of the blocks with the same document is on top is up to `std::make_heap` and `std::pop_heap`.
-/
namespace AC
open Spec

theorem keySort_reverse {α β : Type} (key : β → Nat) (f : α → β) (l : List α) : keySortRev key (l.map f) = (keySortRev (fun a => key (f a)) l).map f := by
  have := StdLib.bySorting_byKeys.make key f l.reverse
  simpa [keySortRev, StdLib.bySorting] using this

/-- the second library also looks at keys only -/
theorem StdLib.bySortingRev_byKeys : StdLib.bySortingRev.ByKeys where
  make := fun key f q => keySort_reverse key f q
  pop := fun key f q => by
    cases q with
    | nil => rfl
    | cons x q => simp [StdLib.bySortingRev, keySort_reverse]

end AC

namespace AC.Props
open AC Spec

/-- the completions "b p q" and "p pb pc" with the document ids 1 and 0 -/
def tieColl : Coll := [(1, [[98], [112], [113]]), (0, [[112], [112, 98], [112, 99]])]

theorem tieColl_valid : ValidColl tieColl :=
  ⟨by decide, by decide, by decide, by decide, by decide, by decide, by decide, by decide, by decide, by decide⟩

theorem tieColl_suits : Suits4 tieColl :=
  { terms := ⟨_, tieColl_valid.ready.numTerms, by decide +kernel⟩
    count := by decide
    doc0 := ⟨(1, [[98], [112], [113]]), by decide, by decide⟩
    ids := by decide }

/-- the results of one search with an index just built -/
def resultsOf (std : StdLib) (o : M Index4) (a : Ask) : Option (List (Nat × Str)) :=
  match o with
  | .error _ => none
  | .ok x =>
      match x.ask std a Scratch.fresh with
      | .error _ => none
      | .ok s =>
          match s.pool.results with
          | .error _ => none
          | .ok r => some r

theorem resultsOf_some {std : StdLib} {o : M Index4} {a : Ask} {r : List (Nat × Str)} (h : resultsOf std o a = some r) :
    ∃ x s, o = .ok x ∧ x.ask std a Scratch.fresh = .ok s ∧ s.pool.results = .ok r := by
  unfold resultsOf at h
  split at h
  · cases h
  · split at h
    · cases h
    · split at h
      · cases h
      · cases h
        exact ⟨_, _, rfl, by assumption, by assumption⟩

/-- **C06** is false with type 4 in yet another way: with the two completions of `tieColl`, in blocks of size 3, and the query "q p", the completion "b p q" matches,
and whether it is a result depends on the standard library: it is not with one which leaves blocks with the same document in their order, and it is with one which
reverses them. This is so for every contents of memory and for every library the index was built with. -/
theorem C06_library (std₀ : StdLib) (mem : Nat → W) :
    ∃ C : Coll, ∃ r : Nat × List Str, ValidColl C ∧ Suits4 C ∧ r ∈ C ∧ [113] ∈ r.2 ∧ (∃ t ∈ r.2, [112] <+: t) ∧
      ∃ x, Index4.build std₀ 3 (Pre.run C) mem = .ok x ∧
        (∃ s, x.ask StdLib.bySorting ⟨true, [113, 32, 112], 10⟩ Scratch.fresh = .ok s ∧ s.pool.results = .ok []) ∧
        ∃ s, x.ask StdLib.bySortingRev ⟨true, [113, 32, 112], 10⟩ Scratch.fresh = .ok s ∧ s.pool.results = .ok [shown r] := by
  refine ⟨tieColl, (1, [[98], [112], [113]]), tieColl_valid, tieColl_suits, by decide, by decide, ⟨[112], by decide, by decide⟩, ?_⟩
  obtain ⟨x, _, hx, _⟩ := Index4.exists tieColl_valid.ready tieColl_suits.toSuits3 std₀ 3 mem
  have ha : Ask.Ok ⟨true, [113, 32, 112], 10⟩ := ⟨by decide, by decide, by decide⟩
  refine ⟨x, hx, ?_, ?_⟩
  · obtain ⟨y, s, hy, h1, h2⟩ := resultsOf_some (show resultsOf StdLib.bySorting (Index4.build StdLib.bySorting 3 (Pre.run tieColl) (fun _ => 0))
      ⟨true, [113, 32, 112], 10⟩ = some [] by decide +kernel)
    rcases C45_rebuilt4 tieColl_valid tieColl_suits hx hy StdLib.bySorting _ _ _ StdLib.bySorting_byKeys ha Scratch.fresh_wf Scratch.fresh_wf with
      ⟨_, e⟩ | ⟨t, t', res, e1, e2, e3, e4⟩
    · rw [h1] at e
      cases e
    · rw [h1] at e2
      cases e2
      rw [h2] at e4
      cases e4
      exact ⟨t, e1, e3⟩
  · obtain ⟨y, s, hy, h1, h2⟩ := resultsOf_some (show resultsOf StdLib.bySortingRev (Index4.build StdLib.bySorting 3 (Pre.run tieColl) (fun _ => 0))
      ⟨true, [113, 32, 112], 10⟩ = some [shown (1, [[98], [112], [113]])] by decide +kernel)
    rcases C45_rebuilt4 tieColl_valid tieColl_suits hx hy StdLib.bySortingRev _ _ _ StdLib.bySortingRev_byKeys ha Scratch.fresh_wf Scratch.fresh_wf with
      ⟨_, e⟩ | ⟨t, t', res, e1, e2, e3, e4⟩
    · rw [h1] at e
      cases e
    · rw [h1] at e2
      cases e2
      rw [h2] at e4
      cases e4
      exact ⟨t, e1, e3⟩

/-- both libraries look at keys only, as `C45_answers4` asks -/
example : StdLib.bySorting.ByKeys ∧ StdLib.bySortingRev.ByKeys := ⟨StdLib.bySorting_byKeys, StdLib.bySortingRev_byKeys⟩

end AC.Props
