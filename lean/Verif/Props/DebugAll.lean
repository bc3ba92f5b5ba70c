import Verif.Proofs.DebugAllIndex
import Verif.Props.DebugSearch
/-!
# C89: building an index and searching it with every assertion of the code in place

The functions whose names end with `A` are those of a program built with assertions, down to the bits; the others are those of a program built without.
-/
namespace AC.Props
open AC Spec

/-- **C89**, type 1: with all assertions, building succeeds with the same index, and every search that answers without assertions answers with them,
with the same results.

Partial: numbers of terms that are multiples of 17 are excluded (there it is false, `C89_false`); so are collections where document 0
contains all the terms, and values of `k` above 15 (`C89_k`). -/
theorem C89_type1_partial (std : StdLib) {C : Coll} (hC : ValidColl C) (hw : Suits1 C) (mem : Nat → W) :
    ∃ x, Index1.buildA (Pre.run C) mem = .ok x ∧ Index1.build (Pre.run C) mem = .ok x ∧ ∀ q k s, IsText q → 1 ≤ k → k ≤ MAX_K → Scratch.WF s →
      SameSearch (x.prefixTopkA std q k s) (x.prefixTopk std q k s) ∧ SameSearch (x.conjTopkA std q k s) (x.conjTopk std q k s) := by
  obtain ⟨x, h1, h2⟩ := Index1.exists hC.ready hw mem
  obtain ⟨n, hn, h17⟩ := hw.terms
  rw [hC.ready.numTerms_eq hn] at h17
  have h3 := Index1.build_repA hC.ready h1 h2
  exact ⟨x, Index1.buildA_stays hC.ready mem x h1, h1, fun q k s hq hk hk' hs =>
    ⟨sameSearch (Index1.prefixTopkA_stays hC.ready std h17 h3 hq hk hk' hs) (Index1.prefix_spec std hC.ready h2 hq hk hk' hs),
     sameSearch (Index1.conjTopkA_stays hC.ready std h17 h3 hq hk hk' hs) (Index1.conj_spec std hC.ready h2 hq hk hk' hs)⟩⟩

/-- **C89**, type 2. Partial: numbers of terms or of completions that are multiples of 17 are excluded, as are collections where document 0 contains
all the terms, and values of `k` above 15. -/
theorem C89_type2_partial (std : StdLib) {C : Coll} (hC : ValidColl C) (hw : Suits2 C) (mem : Nat → W) :
    ∃ x, Index2.buildA (Pre.run C) mem = .ok x ∧ Index2.build (Pre.run C) mem = .ok x ∧ ∀ q k s, IsText q → 1 ≤ k → k ≤ MAX_K → Scratch.WF s →
      SameSearch (x.prefixTopkA std q k s) (x.prefixTopk std q k s) ∧ SameSearch (x.conjTopkA std q k s) (x.conjTopk std q k s) := by
  obtain ⟨x, h1, h2⟩ := Index2.exists hC.ready hw mem
  obtain ⟨n, hn, h17⟩ := hw.terms
  rw [hC.ready.numTerms_eq hn] at h17
  have hc17 : (Pre.run C).mapped.length % 17 ≠ 0 := by rw [hC.ready.length_mapped]; exact hw.count
  have h3 := Index2.build_repA hC.ready hc17 h1 h2
  exact ⟨x, Index2.buildA_stays hC.ready mem x h1, h1, fun q k s hq hk hk' hs =>
    ⟨sameSearch (Base.prefixTopkA_stays hC.ready std h17 hc17 h2.base h3.lex h2.dict hq hk hk' hs)
      (Base.prefix_spec std hC.ready h2.base h2.dict h2.built hq hk hk' hs),
     sameSearch (Index2.conjTopkA_stays hC.ready std h17 hc17 h3 hq hk hk' hs) (Index2.conj_spec std hC.ready h2 hq hk hk' hs)⟩⟩

/-- **C89**, type 3. Partial: numbers of terms or of completions that are multiples of 17 are excluded, as are collections with document 0 only, and
values of `k` above 15. -/
theorem C89_type3_partial (std : StdLib) {C : Coll} (hC : ValidColl C) (hw : Suits3 C) (mem : Nat → W) :
    ∃ x, Index3.buildA (Pre.run C) mem = .ok x ∧ Index3.build (Pre.run C) mem = .ok x ∧ ∀ q k s, IsText q → 1 ≤ k → k ≤ MAX_K → Scratch.WF s →
      SameSearch (x.prefixTopkA std q k s) (x.prefixTopk std q k s) ∧ SameSearch (x.conjTopkA std q k s) (x.conjTopk std q k s) := by
  obtain ⟨x, h1, h2⟩ := Index3.exists hC.ready hw mem
  obtain ⟨n, hn, h17⟩ := hw.terms
  rw [hC.ready.numTerms_eq hn] at h17
  have hc17 : (Pre.run C).mapped.length % 17 ≠ 0 := by rw [hC.ready.length_mapped]; exact hw.count
  have h3 := Index3.build_repA hC.ready hc17 h1 h2
  exact ⟨x, Index3.buildA_stays hC.ready mem x h1, h1, fun q k s hq hk hk' hs =>
    ⟨sameSearch (Base.prefixTopkA_stays hC.ready std h17 hc17 h2.base h3.lex h2.dict hq hk hk' hs)
      (Base.prefix_spec std hC.ready h2.base h2.dict h2.built hq hk hk' hs),
     sameSearch (Index3.conjTopkA_stays hC.ready std h17 hc17 h3 hq hk hk' hs) (Index3.conj_spec std hC.ready h2 hq hk hk' hs)⟩⟩

/-- the collections of the examples are such collections -/
example : ValidColl sampleColl ∧ Suits1 sampleColl ∧ Suits2 sampleColl ∧ Suits3 sampleColl :=
  ⟨sampleColl_valid, sampleColl_suits.toSuits1, sampleColl_suits, sampleColl_suits.to3⟩

/-- With all assertions, both searches with type 1 answer as claimed by C01 and C03, when the texts fit. -/
theorem C89_answer1_partial (std : StdLib) {C : Coll} (hC : ValidColl C) (hw : Suits1 C) (mem : Nat → W) :
    ∃ x, Index1.buildA (Pre.run C) mem = .ok x ∧ ∀ q k s, IsText q → 1 ≤ k → k ≤ MAX_K → Scratch.WF s → LastOk C (lastTerm q) →
      (∀ r ∈ C, k * (joined r.2).length + 2 * MAX_CHARS ≤ POOL_SIZE) →
      (∃ s' res, x.prefixTopkA std q k s = .ok s' ∧ s'.pool.resultsD = .ok res ∧ Answer C (PrefixMatch (completeTerms q) (lastTerm q)) k res) ∧
      ∃ s' res, x.conjTopkA std q k s = .ok s' ∧ s'.pool.resultsD = .ok res ∧ Answer C (ConjMatch C (completeTerms q) (lastTerm q)) k res := by
  obtain ⟨x, h1, h2, h3⟩ := C89_type1_partial std hC hw mem
  obtain ⟨x', h4, h5⟩ := C01_exact std hC hw mem
  rw [h2] at h4
  cases h4
  obtain ⟨x', h4, h6⟩ := C03_exact std hC hw mem
  rw [h2] at h4
  cases h4
  refine ⟨x, h1, ?_⟩
  intro q k s hq hk hk' hs hl hroom
  exact ⟨(h3 q k s hq hk hk' hs).1.both ((h5 q k s hq hk hk' hs).congr (fun r _ => PrefixFound_iff hl r.2)) (room_of hk hroom),
    (h3 q k s hq hk hk' hs).2.both ((h6 q k s hq hk hk' hs).congr (fun r _ => ConjFound_iff hl r.2)) (room_of hk hroom)⟩

/-- With all assertions, conjunctive search with type 2 answers as claimed by C04, when the texts fit. -/
theorem C89_answer2_partial (std : StdLib) {C : Coll} (hC : ValidColl C) (hw : Suits2 C) (mem : Nat → W) :
    ∃ x, Index2.buildA (Pre.run C) mem = .ok x ∧ ∀ q k s, IsText q → 1 ≤ k → k ≤ MAX_K → Scratch.WF s → LastOk C (lastTerm q) →
      (∀ r ∈ C, k * (joined r.2).length + 2 * MAX_CHARS ≤ POOL_SIZE) →
      ∃ s' res, x.conjTopkA std q k s = .ok s' ∧ s'.pool.resultsD = .ok res ∧ Answer C (ConjMatch C (completeTerms q) (lastTerm q)) k res := by
  obtain ⟨x, h1, h2, h3⟩ := C89_type2_partial std hC hw mem
  obtain ⟨x', h4, h6⟩ := C04_exact std hC hw mem
  rw [h2] at h4
  cases h4
  refine ⟨x, h1, ?_⟩
  intro q k s hq hk hk' hs hl hroom
  exact (h3 q k s hq hk hk' hs).2.both ((h6 q k s hq hk hk' hs).congr (fun r _ => ConjFound_iff hl r.2)) (room_of hk hroom)

/-- with the collection of the examples, the empty query and `k = 1` -/
example (std : StdLib) (mem : Nat → W) (s : Scratch) (hs : s.WF) :
    ∃ x s' res, Index1.buildA (Pre.run sampleColl) mem = .ok x ∧ x.conjTopkA std [] 1 s = .ok s' ∧ s'.pool.resultsD = .ok res := by
  obtain ⟨x, h1, h2⟩ := C89_answer1_partial std sampleColl_valid sampleColl_suits.toSuits1 mem
  obtain ⟨-, s', res, e, f, -⟩ := h2 [] 1 s (by intro c hc; cases hc) (by decide) (by decide) hs (fun _ _ _ => Or.inl rfl) (by decide)
  exact ⟨x, s', res, h1, e, f⟩

/-- with more than 15 results requested, the first assertion of every search fails, for every index, query and state -/
theorem C89_k (std : StdLib) (q : Str) (k : Nat) (hk : MAX_K < k) (s : Scratch) :
    (∀ x : Index1, x.prefixTopkA std q k s = .error .aborted ∧ x.conjTopkA std q k s = .error .aborted) ∧
    (∀ x : Base, x.prefixTopkA std q k s = .error .aborted) ∧ (∀ x : Index2, x.conjTopkA std q k s = .error .aborted) ∧
    ∀ x : Index3, x.conjTopkA std q k s = .error .aborted := by
  have key : ∀ d must, analyseD d q k must s = .error .aborted := by
    intro d must
    unfold analyseD
    rw [show AC.check (k ≤ MAX_K) = .error .aborted from if_neg (by omega)]
    rfl
  refine ⟨fun x => ⟨?_, ?_⟩, fun x => ?_, fun x => ?_, fun x => ?_⟩
  · unfold Index1.prefixTopkA; rw [key]; rfl
  · unfold Index1.conjTopkA; rw [key]; rfl
  · unfold Base.prefixTopkA; rw [key]; rfl
  · unfold Index2.conjTopkA; rw [key]; rfl
  · unfold Index3.conjTopkA; rw [key]; rfl

/-- the values of `k` that the program accepts on its command line and that no search accepts -/
example : MAX_K < 16 := by decide

end AC.Props
