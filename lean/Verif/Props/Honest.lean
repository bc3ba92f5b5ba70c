import Verif.Props.BothLost
import Verif.Props.Conjunctive
import Verif.Spec.Honest
/-!
# C70: every result of every search, whatever the collection

C01 to C06, C66, C68 and C69 together: the numbers of terms and of completions do not matter here, nor which terms the query has. All that is asked
is that the collection is valid and that the index could be built.
-/
namespace AC.Props
open AC Spec

/-- What a search does: it returns results as described by `Honest`, and leaves a state in which searches can be run; or it accesses memory out of
bounds. It neither throws nor runs forever. -/
def HonestSearch (C : Coll) (P : List Str → Prop) (k : Nat) (o : M Scratch) : Prop :=
  (∃ s' res, o = .ok s' ∧ s'.WF ∧ s'.pool.results = .ok res ∧ Honest C P k res) ∨ o = .error .oob

/-- the same, the results being ranked -/
def RankedSearch (C : Coll) (P : List Str → Prop) (k : Nat) (o : M Scratch) : Prop :=
  (∃ s' res, o = .ok s' ∧ s'.WF ∧ s'.pool.results = .ok res ∧ Honest C P k res ∧ Ranked res) ∨ o = .error .oob

theorem _root_.AC.Shows.honest {C : Coll} {terms : List Str} {P : List Str → Prop} {k : Nat} {E : Coll} {o : M Scratch} (h : Shows terms E o) (hle : E.length ≤ k)
    (hs : ∀ r ∈ E, r ∈ C ∧ P r.2) : HonestSearch C P k o := by
  rcases h with ⟨h, _⟩ | ⟨s, h1, h2, h3, _⟩
  · exact Or.inr h
  · refine Or.inl ⟨s, _, h1, h2, h3, by simpa using hle, ?_⟩
    intro e he
    obtain ⟨r, hr, rfl⟩ := List.mem_map.mp he
    exact ⟨r.2, (hs r hr).1, rfl, (hs r hr).2⟩

theorem _root_.AC.Shows.ranked {C : Coll} {terms : List Str} {P Q : List Str → Prop} {k : Nat} {E : Coll} {o : M Scratch} (h : Shows terms E o)
    (b : Spec.Best C P k E) (hPQ : ∀ r ∈ C, P r.2 → Q r.2) : RankedSearch C Q k o := by
  rcases h with ⟨h, _⟩ | ⟨s, h1, h2, h3, _⟩
  · exact Or.inr h
  · refine Or.inl ⟨s, _, h1, h2, h3, ⟨by simpa using b.le, ?_⟩, ?_⟩
    · intro e he
      obtain ⟨r, hr, rfl⟩ := List.mem_map.mp he
      exact ⟨r.2, (b.sound r hr).1, rfl, hPQ r (b.sound r hr).1 (b.sound r hr).2⟩
    · exact List.pairwise_map.mpr b.sorted

theorem _root_.AC.Outcome.ranked {C : Coll} {terms : List Str} {P Q : List Str → Prop} {k : Nat} {o : M Scratch} (h : Outcome C terms P k o)
    (hPQ : ∀ r ∈ C, P r.2 → Q r.2) : RankedSearch C Q k o := by
  obtain ⟨E, b, h⟩ := h
  exact h.ranked b hPQ

theorem _root_.AC.Outcome17.ranked {C : Coll} {terms : List Str} {P Q : List Str → Prop} {k : Nat} {o : M Scratch} (h : Outcome17 C terms P k o)
    (hPQ : ∀ r ∈ C, P r.2 → Q r.2) : RankedSearch C Q k o := by
  obtain ⟨E, b, h1, h2⟩ := h
  by_cases hg : ∃ r ∈ E, ∃ t ∈ r.2, AmongLast C 16 t
  · exact Or.inr (h2 hg)
  · exact (h1 (fun r hr t ht hl => hg ⟨r, hr, t, ht, hl⟩)).ranked b hPQ

theorem _root_.AC.OutcomeC.ranked {C : Coll} {terms : List Str} {P Q : List Str → Prop} {k : Nat} {o : M Scratch} (h : OutcomeC C terms P k o)
    (hPQ : ∀ r ∈ C, P r.2 → Q r.2) : RankedSearch C Q k o := by
  obtain ⟨E, b, h1, h2⟩ := h
  by_cases hg : ∃ r ∈ E, LastCompletion C 16 r.2
  · exact Or.inr (h2 hg)
  · exact (h1 (fun r hr hl => hg ⟨r, hr, hl⟩)).ranked b hPQ

theorem _root_.AC.OutcomeB.ranked {C : Coll} {terms : List Str} {P Q : List Str → Prop} {k : Nat} {o : M Scratch} (h : OutcomeB C terms P k o)
    (hPQ : ∀ r ∈ C, P r.2 → Q r.2) : RankedSearch C Q k o := by
  obtain ⟨E, b, h1, h2⟩ := h
  by_cases hg : ∃ r ∈ E, Gone C r.2
  · exact Or.inr (h2 hg)
  · exact (h1 (fun r hr hl => hg ⟨r, hr, hl⟩)).ranked b hPQ

theorem _root_.AC.Sound17.honest {C : Coll} {terms : List Str} {P Q : List Str → Prop} {k : Nat} {o : M Scratch} (h : Sound17 C terms P k o)
    (hPQ : ∀ r ∈ C, P r.2 → Q r.2) : HonestSearch C Q k o := by
  obtain ⟨E, hle, hs, h1, h2⟩ := h
  by_cases hg : ∃ r ∈ E, ∃ t ∈ r.2, AmongLast C 16 t
  · exact Or.inr (h2 hg)
  · exact (h1 (fun r hr t ht hl => hg ⟨r, hr, t, ht, hl⟩)).honest hle (fun r hr => ⟨(hs r hr).1, hPQ r (hs r hr).1 (hs r hr).2⟩)

theorem _root_.AC.SoundB.honest {C : Coll} {terms : List Str} {P Q : List Str → Prop} {k : Nat} {o : M Scratch} (h : SoundB C terms P k o)
    (hPQ : ∀ r ∈ C, P r.2 → Q r.2) : HonestSearch C Q k o := by
  obtain ⟨E, hle, hs, h1, h2⟩ := h
  by_cases hg : ∃ r ∈ E, Gone C r.2
  · exact Or.inr (h2 hg)
  · exact (h1 (fun r hr hl => hg ⟨r, hr, hl⟩)).honest hle (fun r hr => ⟨(hs r hr).1, hPQ r (hs r hr).1 (hs r hr).2⟩)

/-! ## From the matches of the code to those of the claim -/

theorem prefixFound_match {C : Coll} {complete : List Str} {last : Str} {c : List Str} (h : PrefixFound C complete last c) : PrefixMatch complete last c := by
  obtain ⟨x, hx, hp⟩ := h
  exact ⟨x, hx.1, hp⟩

theorem prefixKept_match {C : Coll} {complete : List Str} {last : Str} {c : List Str} (h : PrefixKept C complete last c) : PrefixMatch complete last c := by
  obtain ⟨_, x, hx, hp⟩ := h
  exact ⟨x, hx.1.1, hp⟩

theorem conjFound_most {C : Coll} {complete : List Str} {last : Str} {c : List Str} (h : ConjFound C complete last c) : ConjMost C complete last c := by
  obtain ⟨h0, x, hx, hp⟩ := h
  exact ⟨fun t ht hi => Or.inl (h0 t ht hi), x, hx, hp.1⟩

theorem conjKept_most {C : Coll} (hC : ValidColl C) (h17 : (Pre.run C).terms.length % 17 = 0) {complete : List Str} {last : Str} {c : List Str}
    (h : ConjKept C complete last c) : ConjMost C complete last c := by
  obtain ⟨h0, x, hx, hp⟩ := h
  refine ⟨fun t ht hi => ?_, x, hx, hp.1.1⟩
  by_cases hl : AmongLast C 16 t
  · refine Or.inr ⟨hl, fun n hn => ?_⟩
    rw [hC.ready.numTerms_eq hn]
    exact h17
  · exact Or.inl (h0 t ht ⟨hi, hl⟩)

theorem doc_of_doc0 {C : Coll} (h : ∃ t, IsTerm C t ∧ ∀ c, (0, c) ∈ C → t ∉ c) : ∃ r ∈ C, r.1 ≠ 0 := by
  obtain ⟨t, ⟨r, hr, ht⟩, hn⟩ := h
  exact ⟨r, hr, fun h0 => hn r.2 (by rw [← h0]; exact hr) ht⟩

theorem doc_of_kept {C : Coll} (h : KeptDoc C) : ∃ r ∈ C, r.1 ≠ 0 := by
  obtain ⟨r, hr, h0⟩ := h
  exact ⟨r, List.mem_of_mem_take hr, h0⟩

/-! ## The searches -/

/-- **C70** for type 1 -/
theorem C70_type1 (std : StdLib) {C : Coll} (hC : ValidColl C) {mem : Nat → W} {x : Index1} (hx : Index1.build (Pre.run C) mem = .ok x)
    {q : Str} {k : Nat} {s : Scratch} (hq : IsText q) (hk : 1 ≤ k) (hk' : k ≤ MAX_K) (hs : s.WF) :
    RankedSearch C (PrefixMatch (completeTerms q) (lastTerm q)) k (x.prefixTopk std q k s) ∧
    RankedSearch C (ConjMost C (completeTerms q) (lastTerm q)) k (x.conjTopk std q k s) := by
  have hr := hC.ready
  rcases Index1.build_iff hr mem with ⟨_, h0⟩ | ⟨he, _⟩
  · by_cases h17 : (Pre.run C).terms.length % 17 = 0
    · obtain ⟨y, y1, y2⟩ := Index1.build_lossy hr h17 (doc_of_doc0 h0) (hr.minList h0) mem
      rw [hx] at y1
      cases y1
      exact ⟨(Index1.prefix_outcome17 std hr y2 hq hk hk' hs).ranked (fun _ _ => prefixKept_match),
        (Index1.conj_lossy std hr y2 hq hk hk' hs).ranked (fun _ _ => conjKept_most hC h17)⟩
    · obtain ⟨y, y1, y2⟩ := Index1.build_spec hr h17 (doc_of_doc0 h0) (hr.minList h0) mem
      rw [hx] at y1
      cases y1
      exact ⟨(Index1.prefix_spec std hr y2 hq hk hk' hs).ranked (fun _ _ => prefixFound_match),
        (Index1.conj_spec std hr y2 hq hk hk' hs).ranked (fun _ _ => conjFound_most)⟩
  · rw [hx] at he
    simp at he

/-- **C70** for type 3 -/
theorem C70_type3 (std : StdLib) {C : Coll} (hC : ValidColl C) {mem : Nat → W} {x : Index3} (hx : Index3.build (Pre.run C) mem = .ok x)
    {q : Str} {k : Nat} {s : Scratch} (hq : IsText q) (hk : 1 ≤ k) (hk' : k ≤ MAX_K) (hs : s.WF) :
    RankedSearch C (PrefixMatch (completeTerms q) (lastTerm q)) k (x.toBase.prefixTopk std q k s) ∧
    RankedSearch C (ConjMost C (completeTerms q) (lastTerm q)) k (x.conjTopk std q k s) := by
  have hr := hC.ready
  have hml := hr.length_mapped
  rcases Index3.build_iff hr mem with ⟨_, h0⟩ | ⟨he, _⟩
  · by_cases h17 : (Pre.run C).terms.length % 17 = 0 <;> by_cases hc17 : C.length % 17 = 0
    · obtain ⟨y, y1, y2⟩ := Index3.build_both hr h17 hc17 h0 mem
      rw [hx] at y1
      cases y1
      exact ⟨(Base.prefix_specB hr std y2.base y2.dict y2.built hq hk hk' hs).ranked (fun _ _ h => prefixKept_match h.1.1),
        (Index3.conj_specB hr std y2 hq hk hk' hs).ranked (fun _ _ => conjKept_most hC h17)⟩
    · obtain ⟨y, y1, y2⟩ := Index3.build_lossy hr h17 (by rw [hml]; exact hc17) (doc_of_kept h0) mem
      rw [hx] at y1
      cases y1
      exact ⟨(Base.prefix_outcome17 std hr y2.base y2.dict y2.built hq hk hk' hs).ranked (fun _ _ h => prefixKept_match h.1),
        (Index3.conj_lossy std hr y2 hq hk hk' hs).ranked (fun _ _ => conjKept_most hC h17)⟩
    · obtain ⟨y, y1, y2⟩ := Index3.build_lost hr h17 hc17 h0 mem
      rw [hx] at y1
      cases y1
      exact ⟨(Base.prefix_spec17 hr std y2.base y2.dict y2.built hq hk hk' hs).ranked (fun _ _ h => prefixFound_match h.1.1),
        (Index3.conj_specC hr std y2 hq hk hk' hs).ranked (fun _ _ => conjFound_most)⟩
    · obtain ⟨y, y1, y2⟩ := Index3.build_spec hr h17 (by rw [hml]; exact hc17) (doc_of_kept h0) mem
      rw [hx] at y1
      cases y1
      exact ⟨(Base.prefix_spec std hr y2.base y2.dict y2.built hq hk hk' hs).ranked (fun _ _ h => prefixFound_match h.1),
        (Index3.conj_spec std hr y2 hq hk hk' hs).ranked (fun _ _ => conjFound_most)⟩
  · rw [hx] at he
    simp at he

/-- **C70** for type 2 -/
theorem C70_type2 (std : StdLib) {C : Coll} (hC : ValidColl C) {mem : Nat → W} {x : Index2} (hx : Index2.build (Pre.run C) mem = .ok x)
    {q : Str} {k : Nat} {s : Scratch} (hq : IsText q) (hk : 1 ≤ k) (hk' : k ≤ MAX_K) (hs : s.WF) :
    RankedSearch C (PrefixMatch (completeTerms q) (lastTerm q)) k (x.toBase.prefixTopk std q k s) ∧
    RankedSearch C (ConjMost C (completeTerms q) (lastTerm q)) k (x.conjTopk std q k s) := by
  have hr := hC.ready
  have hml := hr.length_mapped
  rcases Index2.build_iff hr mem with ⟨_, h0, h1⟩ | ⟨he, _⟩
  · by_cases h17 : (Pre.run C).terms.length % 17 = 0 <;> by_cases hc17 : C.length % 17 = 0
    · obtain ⟨y, y1, y2⟩ := Index2.build_both hr h17 hc17 h0 (hr.minList h1) mem
      rw [hx] at y1
      cases y1
      refine ⟨(Base.prefix_specB hr std y2.base y2.dict y2.built hq hk hk' hs).ranked (fun _ _ h => prefixKept_match h.1.1), ?_⟩
      obtain ⟨h3, h4⟩ := Index2.conj_specB hr std y2 hq hk hk' hs
      by_cases hl : ∃ d c, ExaminedKept C (completeTerms q) (lastTerm q) k d c ∧ LastCompletion C 16 c
      · exact Or.inr (h3 hl)
      · exact (h4 hl).ranked (fun _ _ => conjKept_most hC h17)
    · obtain ⟨y, y1, y2⟩ := Index2.build_lossy hr h17 (by rw [hml]; exact hc17) (doc_of_kept h0) (hr.minList h1) mem
      rw [hx] at y1
      cases y1
      exact ⟨(Base.prefix_outcome17 std hr y2.base y2.dict y2.built hq hk hk' hs).ranked (fun _ _ h => prefixKept_match h.1),
        (Index2.conj_lossy std hr y2 hq hk hk' hs).ranked (fun _ _ => conjKept_most hC h17)⟩
    · obtain ⟨y, y1, y2⟩ := Index2.build_lost hr h17 hc17 h0 (hr.minList h1) mem
      rw [hx] at y1
      cases y1
      refine ⟨(Base.prefix_spec17 hr std y2.base y2.dict y2.built hq hk hk' hs).ranked (fun _ _ h => prefixFound_match h.1.1), ?_⟩
      obtain ⟨h3, h4⟩ := Index2.conj_specC hr std y2 hq hk hk' hs
      by_cases hl : ∃ d c, Examined C (completeTerms q) (lastTerm q) k d c ∧ LastCompletion C 16 c
      · exact Or.inr (h3 hl)
      · exact (h4 hl).ranked (fun _ _ => conjFound_most)
    · obtain ⟨y, y1, y2⟩ := Index2.build_spec hr h17 (by rw [hml]; exact hc17) (doc_of_kept h0) (hr.minList h1) mem
      rw [hx] at y1
      cases y1
      exact ⟨(Base.prefix_spec std hr y2.base y2.dict y2.built hq hk hk' hs).ranked (fun _ _ h => prefixFound_match h.1),
        (Index2.conj_spec std hr y2 hq hk hk' hs).ranked (fun _ _ => conjFound_most)⟩
  · rw [hx] at he
    simp at he

/-- the results of conjunctive search with type 4 match -/
theorem result4_most {C : Coll} {B : List (List Str)} {complete : List Str} {last : Str} {S : Coll} (h : Result4 C B complete last S) :
    ∀ r ∈ S, r ∈ C ∧ ConjMost C complete last r.2 := by
  intro r hr
  refine ⟨h.mem r hr, ?_⟩
  by_cases hk : ∃ t ∈ complete, IsTerm C t
  · obtain ⟨_, h2, _⟩ := h.inter hk
    obtain ⟨h3, _, b, _, _, x, hx, _, hre⟩ := h2 r hr
    exact ⟨fun t ht hi => Or.inl (h3 t ht hi), x, hx, hre.1⟩
  · obtain ⟨_, h2⟩ := h.union (fun t ht hi => hk ⟨t, ht, hi⟩)
    have h3 := h2 r (h.mem r hr)
    have h4 : 0 < S.count r := List.count_pos_iff.mpr hr
    rw [h3] at h4
    unfold copies at h4
    obtain ⟨b, hb⟩ := List.exists_mem_of_length_pos h4
    have := (List.mem_filter.mp hb).2
    simp only [decide_eq_true_eq] at this
    obtain ⟨x, hx, _, hre⟩ := this.2
    exact ⟨fun t ht hi => absurd ⟨t, ht, hi⟩ hk, x, hx, hre.1⟩

/-- **C70** for type 4: conjunctive search may show a completion more than once (`C06_false`) -/
theorem C70_type4 (std : StdLib) {C : Coll} (hC : ValidColl C) (hids : ∀ r ∈ C, r.1 < 2 ^ 32 - 2) {m : Nat} {mem : Nat → W} {x : Index4}
    (hx : Index4.build std m (Pre.run C) mem = .ok x) {q : Str} {k : Nat} {s : Scratch} (hq : IsText q) (hk : 1 ≤ k) (hk' : k ≤ MAX_K) (hs : s.WF) :
    RankedSearch C (PrefixMatch (completeTerms q) (lastTerm q)) k (x.toBase.prefixTopk std q k s) ∧
    HonestSearch C (ConjMost C (completeTerms q) (lastTerm q)) k (x.conjTopk std q k s) := by
  have hr := hC.ready
  have hml := hr.length_mapped
  have h0 : KeptDoc C := by
    rcases Base.build_iff hr mem with ⟨_, h0⟩ | ⟨he, _⟩
    · exact h0
    · unfold Index4.build at hx
      obtain ⟨_, _, hx⟩ := bind_ok hx
      rw [he, M.error_bind] at hx
      simp at hx
  by_cases h17 : (Pre.run C).terms.length % 17 = 0 <;> by_cases hc17 : C.length % 17 = 0
  · obtain ⟨y, docss, y1, y2⟩ := Index4.build_both hr h17 hc17 h0 std m mem
    rw [hx] at y1
    cases y1
    exact ⟨(Base.prefix_specB hr std y2.base y2.dict y2.built hq hk hk' hs).ranked (fun _ _ h => prefixKept_match h.1.1),
      (Index4.conj_soundB hr std y2 hids hq hk hk' hs).honest (fun _ _ => conjKept_most hC h17)⟩
  · obtain ⟨y, docss, y1, y2⟩ := Index4.build_lossy hr h17 (by rw [hml]; exact hc17) (doc_of_kept h0) std m mem
    rw [hx] at y1
    cases y1
    exact ⟨(Base.prefix_outcome17 std hr y2.base y2.dict y2.built hq hk hk' hs).ranked (fun _ _ h => prefixKept_match h.1),
      (Index4.conj_lossy hr std y2 hids hq hk hk' hs).honest (fun _ _ => conjKept_most hC h17)⟩
  · obtain ⟨y, docss, y1, y2⟩ := Index4.build_lost hr h17 hc17 h0 std m mem
    rw [hx] at y1
    cases y1
    refine ⟨(Base.prefix_spec17 hr std y2.base y2.dict y2.built hq hk hk' hs).ranked (fun _ _ h => prefixFound_match h.1.1), ?_⟩
    obtain ⟨S, s1, s2⟩ := Index4.conj_specC hr std y2 hids hq
    obtain ⟨s3, s4⟩ := s2 k hk hk' s hs
    by_cases hl : ∃ r ∈ S.take k, LastCompletion C 16 r.2
    · exact Or.inr (s4 hl)
    · exact (s3 (fun r hr hh => hl ⟨r, hr, hh⟩)).honest (by rw [List.length_take]; omega) (fun r hr => result4_most s1 r (List.mem_of_mem_take hr))
  · obtain ⟨y, docss, y1, y2⟩ := Index4.build_spec hr h17 (by rw [hml]; exact hc17) (doc_of_kept h0) std m mem
    rw [hx] at y1
    cases y1
    refine ⟨(Base.prefix_spec std hr y2.base y2.dict y2.built hq hk hk' hs).ranked (fun _ _ h => prefixFound_match h.1), ?_⟩
    obtain ⟨S, s1, s2⟩ := Index4.conj_spec hr std y2 hids hq
    exact (s2 q hq rfl (fun _ => Iff.rfl) k hk hk' s hs).honest (by rw [List.length_take]; omega) (fun r hr => result4_most s1 r (List.mem_of_mem_take hr))

/-- The hypotheses hold of the collection for which both numbers are multiples of 17, for every type; and a search that returns something: that of "aq ar". -/
example (std : StdLib) (m : Nat) (mem : Nat → W) : (∃ x, Index1.build (Pre.run collB34) mem = .ok x) ∧ (∃ x, Index2.build (Pre.run collB34) mem = .ok x) ∧
    (∃ x, Index4.build std m (Pre.run collB34) mem = .ok x) ∧ (∀ r ∈ collB34, r.1 < 2 ^ 32 - 2) ∧ ∃ x, Index3.build (Pre.run collB34) mem = .ok x ∧
    ∃ s' res, x.conjTopk std [97, 113, 32, 97, 114] 15 Scratch.fresh = .ok s' ∧ s'.pool.results = .ok res ∧
      Honest collB34 (ConjMost collB34 [[97, 113]] [97, 114]) 15 res ∧ Ranked res ∧ res ≠ [] := by
  have hr := collB34_valid.ready
  have hs := collB34_suits
  have hk := hr.keptDoc hs.count hs.doc
  have h17 := Suits17e.mod collB34_valid hs.toSuits17e
  refine ⟨?_, ?_, ?_, by decide +kernel, ?_⟩
  · obtain ⟨x, h, _⟩ := Index1.build_lossy hr h17 (doc_of_doc0 hs.doc0) (hr.minList hs.doc0) mem
    exact ⟨x, h⟩
  · obtain ⟨x, h, _⟩ := Index2.build_both hr h17 hs.count hk (hr.minList hs.doc0) mem
    exact ⟨x, h⟩
  · obtain ⟨x, _, h, _⟩ := Index4.build_both hr h17 hs.count hk std m mem
    exact ⟨x, h⟩
  · obtain ⟨x, h1, h2⟩ := C69_partial std collB34_valid hs.toSuits17e mem
    refine ⟨x, h1, ?_⟩
    obtain ⟨_, _, c3, c4, c5, c6, _, _, c9, c10, c11, c12⟩ := collB34_case
    have hq : IsText [97, 113, 32, 97, 114] := by decide
    obtain ⟨s', res, e1, _, e2, e3⟩ := (h2 _ 15 Scratch.fresh hq (by decide) (by decide) Scratch.fresh_wf (by rw [c12]; exact c4) c3).2
      (by rw [c11, c12]; exact c9) (by rw [c11]; exact c10)
    have h3 := (C70_type3 std collB34_valid h1 hq (by decide) (by decide) Scratch.fresh_wf (k := 15)).2
    rw [c11, c12] at h3 e3
    refine ⟨s', res, e1, e2, ?_⟩
    rcases h3 with ⟨s2, res2, f1, _, f2, f3, f4⟩ | h3
    · rw [e1] at f1
      cases f1
      rw [e2] at f2
      cases f2
      refine ⟨f3, f4, ?_⟩
      rintro rfl
      obtain ⟨E, hb, hE⟩ := e3
      cases E with
      | nil =>
        have hm : ConjMatch collB34 [[97, 113]] [97, 114] [[97, 113], [97, 114]] :=
          ⟨fun t ht _ => by simp only [List.mem_singleton] at ht; simp [ht], [97, 114], by simp, by decide⟩
        have := (hb.complete _ c6 hm (by simp)).1
        simp at this
      | cons r E => simp at hE
    · rw [e1] at h3
      cases h3

end AC.Props
