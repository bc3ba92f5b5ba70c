import Verif.Props.Answers
import Verif.Proofs.BuildAll
/-!
# C41, C42 and C43: preprocessing, construction, and the maps between documents and completions
-/
namespace AC.Props
open AC Spec

/-! ## C43 -/

/-- the id `i` of a term, counted from 1, denotes the string `t` -/
def Denotes (terms : List Str) (i : Nat) (t : Str) : Prop := 0 < i ∧ terms[i - 1]? = some t

/-- **C43**: the files written by the scripts for any collection with distinct document ids. The dictionary has exactly the terms of the
collection, in increasing order. The mapped completions are the completions in the same order with the same document ids, each term
replaced by its id. There is a list for every term; it is increasing and has exactly the documents whose completion has the term. There
is a forward list for every document id up to the largest; it is the mapped completion of the document, or nothing. -/
theorem C43_preprocessing (C : Coll) (hne : C ≠ []) (hd : (C.map (·.1)).Nodup) :
    (Pre.run C).terms.Pairwise (· < ·) ∧ (∀ t, t ∈ (Pre.run C).terms ↔ ∃ r ∈ C, t ∈ r.2) ∧
    (Pre.run C).mapped.map (·.1) = C.map (·.1) ∧
    (∀ i (h : i < C.length), ∃ ids, (Pre.run C).mapped[i]? = some (C[i].1, ids) ∧ ids.length = C[i].2.length ∧
      ∀ j (hj : j < C[i].2.length), ∃ t, ids[j]? = some t ∧ Denotes (Pre.run C).terms t C[i].2[j]) ∧
    (Pre.run C).inverted.length = (Pre.run C).terms.length ∧
    (∀ l ∈ (Pre.run C).inverted, l.Pairwise (· < ·)) ∧
    (∀ i (h : i < (Pre.run C).inverted.length) t d, (Pre.run C).terms[i]? = some t →
      (d ∈ (Pre.run C).inverted[i] ↔ ∃ c, (d, c) ∈ C ∧ t ∈ c)) ∧
    (∀ d (h : d < (Pre.run C).forward.length), (∃ c ids, (d, c) ∈ C ∧ (d, ids) ∈ (Pre.run C).mapped ∧ (Pre.run C).forward[d] = ids) ∨
      ((∀ c, (d, c) ∉ C) ∧ (Pre.run C).forward[d] = [])) ∧
    (∀ r ∈ C, r.1 < (Pre.run C).forward.length) ∧ (Pre.run C).forward.length = (Pre.run C).univ := by
  have F := Pre.run_spec hne hd
  generalize Pre.run C = f at F
  refine ⟨F.terms, F.memTerms, ?_, ?_, F.numLists, ?_, ?_, ?_, ?_, F.numDocs⟩
  · rw [F.mapped, List.map_map]; rfl
  · intro i hi
    refine ⟨C[i].2.map (rankOf f.terms), ?_, by simp, ?_⟩
    · rw [F.mapped, List.getElem?_map, List.getElem?_eq_getElem hi]; rfl
    · intro j hj
      refine ⟨rankOf f.terms C[i].2[j], by simp [hj], rankOf_pos _, ?_⟩
      have hm : C[i].2[j] ∈ f.terms := (F.memTerms _).mpr ⟨C[i], List.getElem_mem hi, List.getElem_mem hj⟩
      obtain ⟨k, hk, he⟩ := List.getElem_of_mem hm
      rw [← he, rankOf_getElem F.terms hk, Nat.add_sub_cancel, List.getElem?_eq_getElem hk]
  · intro l hl
    obtain ⟨i, hi, rfl⟩ := List.getElem_of_mem hl
    have := F.sortedList i (by rw [← F.numLists]; exact hi)
    rwa [List.getD_eq_getElem?_getD, List.getElem?_eq_getElem hi] at this
  · intro i hi t d ht
    have hi' : i < f.terms.length := by rw [← F.numLists]; exact hi
    have := F.memList i d hi'
    rw [List.getD_eq_getElem?_getD, List.getElem?_eq_getElem hi, List.getD_eq_getElem?_getD, ht] at this
    exact this
  · intro d hd'
    by_cases hm : d ∈ C.map (·.1)
    · obtain ⟨r, hr, rfl⟩ := List.mem_map.mp hm
      have := F.forward r hr
      rw [List.getD_eq_getElem?_getD, List.getElem?_eq_getElem hd'] at this
      refine Or.inl ⟨r.2, _, hr, ?_, rfl⟩
      have h2 : f.forward[r.1] = r.2.map (rankOf f.terms) := this
      rw [h2, F.mapped]
      exact List.mem_map.mpr ⟨r, hr, rfl⟩
    · have := F.noDoc d hm
      rw [List.getD_eq_getElem?_getD, List.getElem?_eq_getElem hd'] at this
      exact Or.inr ⟨fun c hc => hm (List.mem_map.mpr ⟨_, hc, rfl⟩), this⟩
  · intro r hr
    rw [F.numDocs]; exact F.lt_univ r hr

/-- the statistics that the constructors read: one more than the largest document id, one more than the largest number of terms of a
completion, and the largest number of characters of one, spaces not counted -/
theorem C43_stats (C : Coll) (hne : C ≠ []) (hd : (C.map (·.1)).Nodup) :
    (∀ r ∈ C, r.1 < (Pre.run C).univ) ∧ (∃ r ∈ C, r.1 + 1 = (Pre.run C).univ) ∧ (∀ r ∈ C, r.2.length < (Pre.run C).levels) ∧
    (∃ r ∈ C, r.2.length + 1 = (Pre.run C).levels) ∧ (∀ r ∈ C, (r.2.map List.length).sum ≤ (Pre.run C).maxLen) ∧
    ∃ r ∈ C, (r.2.map List.length).sum = (Pre.run C).maxLen :=
  have F := Pre.run_spec hne hd
  ⟨F.lt_univ, F.univ, F.lt_levels, F.levels, F.maxLen, F.maxLen_mem⟩

/-- the files of the sample -/
example : Pre.run sampleColl = ⟨[[97, 98], [98], [99]], [(4, [1, 2]), (2, [1, 3]), (0, [2]), (7, [2, 1]), (5, [3, 2, 2])],
    [[2, 4, 7], [0, 4, 5, 7], [2, 5]], [[2], [], [1, 3], [], [1, 2], [3, 2, 2], [], [2, 1]], 8, 4, 3⟩ := by decide +kernel

/-! ## C42 -/

/-- **C42**. Missing from the claim: the collections of `C42_false`. All the types can be built. -/
theorem C42_build_partial {C : Coll} (hC : ValidColl C) (hk : ∃ r ∈ C.take (kept C.length), r.1 ≠ 0)
    (h0 : ∃ t, IsTerm C t ∧ ∀ c, (0, c) ∈ C → t ∉ c) (mem : Nat → W) :
    (∃ x, Index1.build (Pre.run C) mem = .ok x) ∧ (∃ x, Index2.build (Pre.run C) mem = .ok x) ∧ ∃ x, Index3.build (Pre.run C) mem = .ok x := by
  refine ⟨?_, ?_, ?_⟩
  · rcases Index1.build_iff hC.ready mem with h | h
    · exact h.1
    · exact absurd h0 h.2
  · rcases Index2.build_iff hC.ready mem with h | h
    · exact h.1
    · exact absurd ⟨hk, h0⟩ h.2
  · rcases Index3.build_iff hC.ready mem with h | h
    · exact h.1
    · exact absurd hk h.2

/-- The exact conditions, for every valid collection: type 1 needs a term that is not in the completion with document id 0; type 3 a
completion among those that the dictionary keeps (C10) with a document id that is not 0; type 2 needs both. Otherwise the constructor throws. -/
theorem C42_exact {C : Coll} (hC : ValidColl C) (mem : Nat → W) :
    (((∃ x, Index1.build (Pre.run C) mem = .ok x) ∧ ∃ t, IsTerm C t ∧ ∀ c, (0, c) ∈ C → t ∉ c) ∨
      (Index1.build (Pre.run C) mem = .error .thrown ∧ ¬ ∃ t, IsTerm C t ∧ ∀ c, (0, c) ∈ C → t ∉ c)) ∧
    (((∃ x, Index2.build (Pre.run C) mem = .ok x) ∧ (∃ r ∈ C.take (kept C.length), r.1 ≠ 0) ∧ ∃ t, IsTerm C t ∧ ∀ c, (0, c) ∈ C → t ∉ c) ∨
      (Index2.build (Pre.run C) mem = .error .thrown ∧
        ¬ ((∃ r ∈ C.take (kept C.length), r.1 ≠ 0) ∧ ∃ t, IsTerm C t ∧ ∀ c, (0, c) ∈ C → t ∉ c))) ∧
    (((∃ x, Index3.build (Pre.run C) mem = .ok x) ∧ ∃ r ∈ C.take (kept C.length), r.1 ≠ 0) ∨
      (Index3.build (Pre.run C) mem = .error .thrown ∧ ¬ ∃ r ∈ C.take (kept C.length), r.1 ≠ 0)) :=
  ⟨Index1.build_iff hC.ready mem, Index2.build_iff hC.ready mem, Index3.build_iff hC.ready mem⟩

/-- C42 is false: whatever the collection, when the completion with document id 0 has all the terms, types 1 and 2 cannot be built; when it is the only
completion, or the first one of 17, types 2 and 3 cannot. -/
theorem C42_false {C : Coll} (hC : ValidColl C) (mem : Nat → W) {c : List Str} :
    ((0, c) ∈ C → (∀ r ∈ C, ∀ t ∈ r.2, t ∈ c) →
      Index1.build (Pre.run C) mem = .error .thrown ∧ Index2.build (Pre.run C) mem = .error .thrown) ∧
    (C.head? = some (0, c) → C.length = 1 ∨ C.length = 17 →
      Index2.build (Pre.run C) mem = .error .thrown ∧ Index3.build (Pre.run C) mem = .error .thrown) := by
  constructor
  · intro hc hall
    have hn : ¬ ∃ t, IsTerm C t ∧ ∀ c, (0, c) ∈ C → t ∉ c := by
      rintro ⟨t, ⟨r, hr, ht⟩, h⟩
      exact h c hc (hall r hr t ht)
    constructor
    · rcases Index1.build_iff hC.ready mem with h | h
      · exact absurd h.2 hn
      · exact h.1
    · rcases Index2.build_iff hC.ready mem with h | h
      · exact absurd h.2.2 hn
      · exact h.1
  · intro hc hlen
    have hk : kept C.length = 1 := by unfold kept; rcases hlen with h | h <;> rw [h] <;> decide
    have hn : ¬ KeptDoc C := by
      unfold KeptDoc
      rw [hk]
      cases C with
      | nil => simp at hc
      | cons r C =>
          simp only [List.head?_cons, Option.some.injEq] at hc
          subst hc
          simp
    constructor
    · rcases Index2.build_iff hC.ready mem with h | h
      · exact absurd h.2.1 hn
      · exact h.1
    · rcases Index3.build_iff hC.ready mem with h | h
      · exact absurd h.2 hn
      · exact h.1

/-- the completions "a" and "b a", of which the second one has document id 0 and all the terms; and "a" alone -/
example : ValidColl [(1, [[97]]), (0, [[98], [97]])] ∧ ((0, [[98], [97]]) ∈ [(1, [[97]]), (0, [[98], [97]])]) ∧
    (∀ r ∈ [(1, [[97]]), (0, [[98], [97]])], ∀ t ∈ r.2, t ∈ [[98], [97]]) ∧ ValidColl [(0, [[97]])] :=
  ⟨⟨by decide, by decide, by decide, by decide, by decide, by decide, by decide, by decide, by decide, by decide⟩, by decide, by decide,
    by decide, by decide, by decide, by decide, by decide, by decide, by decide, by decide, by decide, by decide⟩

/-- the sample meets the hypotheses of `C42_build_partial` -/
example : (∃ r ∈ sampleColl.take (kept sampleColl.length), r.1 ≠ 0) ∧ ∃ t, IsTerm sampleColl t ∧ ∀ c, (0, c) ∈ sampleColl → t ∉ c :=
  ⟨⟨(4, [[97, 98], [98]]), by decide, by decide⟩, sampleColl_suits.doc0⟩

/-! ## C41 -/

/-- **C41**. Missing from the claim: numbers of completions that are multiples of 17 (`C41_false`). With types 2, 3 and 4 the document id of the
`i`-th completion is mapped to `i`, and `i` to the document id, whatever the ids. -/
theorem C41_bijection_partial {C : Coll} (hC : ValidColl C) {mem : Nat → W} {x : Base} (hx : Base.build (Pre.run C) mem = .ok x)
    (h17 : C.length % 17 ≠ 0) (i : Nat) (hi : i < C.length) :
    ∃ w, x.lexids.get C[i].1 = .ok w ∧ w.toNat = i ∧ x.docs.access i = .ok C[i].1 := by
  obtain ⟨w, h1, h2⟩ := Base.maps hC.ready hx i hi
  have hk : kept C.length = C.length := by unfold kept; rw [if_neg h17]
  rcases h2 with ⟨_, h3, h4⟩ | ⟨h3, _⟩
  · exact ⟨w, h1, h3, h4⟩
  · omega

/-- C41 is false: with a multiple of 17 completions, the document ids of the last 16 are mapped to positions that do not exist, and their positions
to document 0. -/
theorem C41_false {C : Coll} (hC : ValidColl C) {mem : Nat → W} {x : Base} (hx : Base.build (Pre.run C) mem = .ok x)
    (h17 : C.length % 17 = 0) (i : Nat) (hi : i < C.length) (hl : C.length - 16 ≤ i) :
    ∃ w, x.lexids.get C[i].1 = .ok w ∧ C.length ≤ w.toNat ∧ x.docs.access i = .ok 0 := by
  obtain ⟨w, h1, h2⟩ := Base.maps hC.ready hx i hi
  have hk : kept C.length = C.length - 16 := by unfold kept; rw [if_pos h17]
  rcases h2 with ⟨h3, _⟩ | ⟨_, h3, h4⟩
  · omega
  · exact ⟨w, h1, h3, h4⟩

/-- the 17 completions "a", …, "q" with document ids from 1, and the sample, from which the members of types 2 to 4 can be built -/
example (mem : Nat → W) : ValidColl ((List.range 17).map (fun i => (i + 1, [[97 + i]]))) ∧
    (∃ x, Base.build (Pre.run ((List.range 17).map (fun i => (i + 1, [[97 + i]])))) mem = .ok x) ∧
    (∃ x, Base.build (Pre.run sampleColl) mem = .ok x) ∧ sampleColl.length % 17 ≠ 0 := by
  have hv : ValidColl ((List.range 17).map (fun i => (i + 1, [[97 + i]]))) :=
    ⟨by decide, by decide, by decide, by decide, by decide, by decide, by decide, by decide, by decide, by decide⟩
  refine ⟨hv, ?_, ?_, by decide⟩
  · rcases Base.build_iff hv.ready mem with h | h
    · exact h.1
    · exact absurd ⟨(1, [[97]]), by decide, by decide⟩ h.2
  · rcases Base.build_iff sampleColl_valid.ready mem with h | h
    · exact h.1
    · exact absurd ⟨(4, [[97, 98], [98]]), by decide, by decide⟩ h.2

end AC.Props
