import Verif.Proofs.DebugIndex
import Verif.Proofs.DebugSame
import Verif.Props.Prefix
import Verif.Props.Conjunctive
import Verif.Props.Multiple17
/-!
# C86: building an index and searching it, built with assertions

The functions whose names end with `D` are those of a program built with assertions; the others are those of a program built without.
-/
namespace AC.Props
open AC Spec

/-- The call with assertions does what the call without does: it leaves the same state, and from it the results are read alike. -/
def SameSearch (with' without : M Scratch) : Prop :=
  ∀ s, without = .ok s → with' = .ok s ∧ ∃ res, s.pool.resultsD = .ok res ∧ s.pool.results = .ok res

theorem _root_.AC.Outcome.offsets {C : Coll} {terms : List Str} {P : List Str → Prop} {k : Nat} {s : Scratch}
    (h : Outcome C terms P k (.ok s)) : s.pool.offsets ≠ [] ∧ ∃ res, s.pool.results = .ok res := by
  obtain ⟨E, -, ⟨h, -⟩ | ⟨s', e, -, hr, -, -, hh⟩⟩ := h
  · cases h
  · cases e
    refine ⟨?_, _, hr⟩
    rw [hh.offsets]
    simp

theorem sameSearch {C : Coll} {terms : List Str} {P : List Str → Prop} {k : Nat} {w o : M Scratch} (h : Stays w o) (ho : Outcome C terms P k o) :
    SameSearch w o := by
  intro s hs
  subst hs
  obtain ⟨h1, res, h2⟩ := ho.offsets
  exact ⟨h s rfl, res, Pool.resultsD_stays _ h1 _ h2, h2⟩

/-- the search succeeds, with and without assertions, when the texts fit -/
theorem SameSearch.both {C : Coll} {terms : List Str} {P : List Str → Prop} {k : Nat} {w o : M Scratch} (h : SameSearch w o) (ho : Outcome C terms P k o)
    (hroom : ∀ E, Spec.Best C P k E → room E + 2 * MAX_CHARS ≤ POOL_SIZE) :
    ∃ s res, w = .ok s ∧ s.pool.resultsD = .ok res ∧ Answer C P k res := by
  obtain ⟨s, res, e, -, r, a⟩ := ho.answer hroom
  obtain ⟨h1, res', h2, h3⟩ := h s e
  rw [r] at h3
  injection h3 with h3
  exact ⟨s, res, h1, by rw [h2, h3], a⟩

/-- **C86**, type 1: with assertions, building succeeds with the same index, and every search that answers without assertions answers with them, with
the same results.

Partial: numbers of terms that are multiples of 17 are excluded, there it is false (`C86_false`); so are collections where document 0 contains all
the terms, and values of `k` above 15 (`C86_k`). -/
theorem C86_type1_partial (std : StdLib) {C : Coll} (hC : ValidColl C) (hw : Suits1 C) (mem : Nat → W) :
    ∃ x, Index1.buildD (Pre.run C) mem = .ok x ∧ Index1.build (Pre.run C) mem = .ok x ∧ ∀ q k s, IsText q → 1 ≤ k → k ≤ MAX_K → Scratch.WF s →
      SameSearch (x.prefixTopkD std q k s) (x.prefixTopk std q k s) ∧ SameSearch (x.conjTopkD std q k s) (x.conjTopk std q k s) := by
  obtain ⟨x, h1, h2⟩ := Index1.exists hC.ready hw mem
  obtain ⟨n, hn, h17⟩ := hw.terms
  rw [hC.ready.numTerms_eq hn] at h17
  exact ⟨x, Index1.buildD_stays hC.ready mem x h1, h1, fun q k s hq hk hk' hs =>
    ⟨sameSearch (Index1.prefixTopkD_stays hC.ready std h17 h2 (Index1.build_trie hC.ready h1) hq hk hk' hs) (Index1.prefix_spec std hC.ready h2 hq hk hk' hs),
     sameSearch (Index1.conjTopkD_stays hC.ready std h17 h2 hq hk hk' hs) (Index1.conj_spec std hC.ready h2 hq hk hk' hs)⟩⟩

/-- **C86**, type 2. Partial: numbers of terms or of completions that are multiples of 17 are excluded, as are collections where document 0 contains
all the terms, and values of `k` above 15. -/
theorem C86_type2_partial (std : StdLib) {C : Coll} (hC : ValidColl C) (hw : Suits2 C) (mem : Nat → W) :
    ∃ x, Index2.buildD (Pre.run C) mem = .ok x ∧ Index2.build (Pre.run C) mem = .ok x ∧ ∀ q k s, IsText q → 1 ≤ k → k ≤ MAX_K → Scratch.WF s →
      SameSearch (x.prefixTopkD std q k s) (x.prefixTopk std q k s) ∧ SameSearch (x.conjTopkD std q k s) (x.conjTopk std q k s) := by
  obtain ⟨x, h1, h2⟩ := Index2.exists hC.ready hw mem
  obtain ⟨n, hn, h17⟩ := hw.terms
  rw [hC.ready.numTerms_eq hn] at h17
  have hc17 : (Pre.run C).mapped.length % 17 ≠ 0 := by rw [hC.ready.length_mapped]; exact hw.count
  exact ⟨x, Index2.buildD_stays hC.ready mem x h1, h1, fun q k s hq hk hk' hs =>
    ⟨sameSearch (Base.prefixTopkD_stays hC.ready std h17 hc17 h2.base h2.dict hq hk hk' hs) (Base.prefix_spec std hC.ready h2.base h2.dict h2.built hq hk hk' hs),
     sameSearch (Index2.conjTopkD_stays hC.ready std h17 hc17 h2 hq hk hk' hs) (Index2.conj_spec std hC.ready h2 hq hk hk' hs)⟩⟩

/-- **C86**, type 3. Partial: numbers of terms or of completions that are multiples of 17 are excluded, as are collections with document 0 only, and
values of `k` above 15. -/
theorem C86_type3_partial (std : StdLib) {C : Coll} (hC : ValidColl C) (hw : Suits3 C) (mem : Nat → W) :
    ∃ x, Index3.buildD (Pre.run C) mem = .ok x ∧ Index3.build (Pre.run C) mem = .ok x ∧ ∀ q k s, IsText q → 1 ≤ k → k ≤ MAX_K → Scratch.WF s →
      SameSearch (x.prefixTopkD std q k s) (x.prefixTopk std q k s) ∧ SameSearch (x.conjTopkD std q k s) (x.conjTopk std q k s) := by
  obtain ⟨x, h1, h2⟩ := Index3.exists hC.ready hw mem
  obtain ⟨n, hn, h17⟩ := hw.terms
  rw [hC.ready.numTerms_eq hn] at h17
  have hc17 : (Pre.run C).mapped.length % 17 ≠ 0 := by rw [hC.ready.length_mapped]; exact hw.count
  exact ⟨x, Index3.buildD_stays hC.ready mem x h1, h1, fun q k s hq hk hk' hs =>
    ⟨sameSearch (Base.prefixTopkD_stays hC.ready std h17 hc17 h2.base h2.dict hq hk hk' hs) (Base.prefix_spec std hC.ready h2.base h2.dict h2.built hq hk hk' hs),
     sameSearch (Index3.conjTopkD_stays hC.ready std h17 hc17 h2 hq hk hk' hs) (Index3.conj_spec std hC.ready h2 hq hk hk' hs)⟩⟩

/-- the collections of the examples are such collections -/
example : ValidColl sampleColl ∧ Suits1 sampleColl ∧ Suits2 sampleColl ∧ Suits3 sampleColl :=
  ⟨sampleColl_valid, sampleColl_suits.toSuits1, sampleColl_suits, sampleColl_suits.to3⟩

/-- with assertions, prefix search with type 1 answers as claimed by C01, when the texts fit -/
theorem C86_answer1_partial (std : StdLib) {C : Coll} (hC : ValidColl C) (hw : Suits1 C) (mem : Nat → W) :
    ∃ x, Index1.buildD (Pre.run C) mem = .ok x ∧ ∀ q k s, IsText q → 1 ≤ k → k ≤ MAX_K → Scratch.WF s → LastOk C (lastTerm q) →
      (∀ r ∈ C, k * (joined r.2).length + 2 * MAX_CHARS ≤ POOL_SIZE) →
      ∃ s' res, x.prefixTopkD std q k s = .ok s' ∧ s'.pool.resultsD = .ok res ∧ Answer C (PrefixMatch (completeTerms q) (lastTerm q)) k res := by
  obtain ⟨x, h1, h2, h3⟩ := C86_type1_partial std hC hw mem
  obtain ⟨x', h4, h5⟩ := C01_exact std hC hw mem
  rw [h2] at h4
  cases h4
  refine ⟨x, h1, ?_⟩
  intro q k s hq hk hk' hs hl hroom
  exact (h3 q k s hq hk hk' hs).1.both ((h5 q k s hq hk hk' hs).congr (fun r _ => PrefixFound_iff hl r.2)) (room_of hk hroom)

/-! ## Assertions only add failures -/

/-- Whatever the index, the query, `k` and the state: when a search succeeds with assertions, it leaves the state that it leaves without, and when the
results are read with assertions they are those read without. -/
theorem C86_prefix_same (std : StdLib) (q : Str) (k : Nat) (s s' : Scratch) :
    (∀ x : Index1, x.prefixTopkD std q k s = .ok s' → x.prefixTopk std q k s = .ok s') ∧
    (∀ x : Base, x.prefixTopkD std q k s = .ok s' → x.prefixTopk std q k s = .ok s') ∧
    ∀ res, s'.pool.resultsD = .ok res → s'.pool.results = .ok res :=
  ⟨fun x h => Index1.prefixTopkD_same std x q k s s' h, fun x h => Base.prefixTopkD_same std x q k s s' h, fun res h => Pool.resultsD_same _ res h⟩

/-- the same for conjunctive search, with an index of fewer than 2^32 terms -/
theorem C86_conj_same (std : StdLib) (q : Str) (k : Nat) (s s' : Scratch) :
    (∀ x : Index1, x.inverted.numTerms < 2 ^ 32 → x.conjTopkD std q k s = .ok s' → x.conjTopk std q k s = .ok s') ∧
    (∀ x : Index2, x.inverted.numTerms < 2 ^ 32 → x.conjTopkD std q k s = .ok s' → x.conjTopk std q k s = .ok s') ∧
    ∀ x : Index3, x.inverted.numTerms < 2 ^ 32 → x.conjTopkD std q k s = .ok s' → x.conjTopk std q k s = .ok s' :=
  ⟨fun x hx h => Index1.conjTopkD_same std x hx q k s s' h, fun x hx h => Index2.conjTopkD_same std x hx q k s s' h,
   fun x hx h => Index3.conjTopkD_same std x hx q k s s' h⟩

/-- the same for building -/
theorem C86_build_same (F : Files) (mem : Nat → W) :
    (∀ x, Index1.buildD F mem = .ok x → Index1.build F mem = .ok x) ∧ (∀ x, Index2.buildD F mem = .ok x → Index2.build F mem = .ok x) ∧
    ∀ x, Index3.buildD F mem = .ok x → Index3.build F mem = .ok x :=
  ⟨fun x h => Index1.buildD_same F mem x h, fun x h => Index2.buildD_same F mem x h, fun x h => Index3.buildD_same F mem x h⟩

/-- such searches exist: those of C86_type1_partial and so on, here the empty query to type 1 -/
example (std : StdLib) (mem : Nat → W) (s : Scratch) (hs : s.WF) :
    ∃ x s', Index1.buildD (Pre.run sampleColl) mem = .ok x ∧ x.prefixTopkD std [] 1 s = .ok s' := by
  obtain ⟨x, h1, h2⟩ := C86_answer1_partial std sampleColl_valid sampleColl_suits.toSuits1 mem
  obtain ⟨s', res, e, -⟩ := h2 [] 1 s (by intro c hc; cases hc) (by decide) (by decide) hs (fun _ _ _ => Or.inl rfl) (by decide)
  exact ⟨x, s', h1, e⟩

/-! ## What an assertion stops -/

/-- with more than 15 results requested, the first assertion of every search fails, for every index, query and state -/
theorem C86_k (std : StdLib) (q : Str) (k : Nat) (hk : MAX_K < k) (s : Scratch) :
    (∀ x : Index1, x.prefixTopkD std q k s = .error .aborted ∧ x.conjTopkD std q k s = .error .aborted) ∧
    (∀ x : Base, x.prefixTopkD std q k s = .error .aborted) ∧ (∀ x : Index2, x.conjTopkD std q k s = .error .aborted) ∧
    ∀ x : Index3, x.conjTopkD std q k s = .error .aborted := by
  have key : ∀ d must, analyseD d q k must s = .error .aborted := by
    intro d must
    unfold analyseD
    rw [show AC.check (k ≤ MAX_K) = .error .aborted from if_neg (by omega)]
    rfl
  refine ⟨fun x => ⟨?_, ?_⟩, fun x => ?_, fun x => ?_, fun x => ?_⟩
  · unfold Index1.prefixTopkD; rw [key]; rfl
  · unfold Index1.conjTopkD; rw [key]; rfl
  · unfold Base.prefixTopkD; rw [key]; rfl
  · unfold Index2.conjTopkD; rw [key]; rfl
  · unfold Index3.conjTopkD; rw [key]; rfl

/-- the values of `k` that the program accepts on its command line and that no search accepts -/
example : MAX_K < 16 := by decide

/-- C86 is false when the number of terms is a multiple of 17: the index is built, and a search that has to show a completion with one of the last 16
terms does not answer, for example the empty query when one of the `k` completions with the smallest document ids has such a term. -/
theorem C86_false (std : StdLib) {C : Coll} (hC : ValidColl C) (hw : Suits17 C) (mem : Nat → W) :
    ∃ x, Index1.buildD (Pre.run C) mem = .ok x ∧ ∀ q k s d, IsText q → completeTerms q = [] → lastTerm q = [] → 1 ≤ k → k ≤ MAX_K → Scratch.WF s →
      HasLost C d → (∀ G : Coll, G.Nodup → (∀ r ∈ G, r ∈ C ∧ r.1 < d) → G.length < k) →
      ∀ s', x.prefixTopkD std q k s ≠ .ok s' := by
  obtain ⟨x, h1, h2⟩ := C66_fault std hC hw mem
  refine ⟨x, Index1.buildD_stays hC.ready mem x h1, ?_⟩
  intro q k s d hq e1 e2 hk hk' hs hl hG s' h
  have := (h2 q k s d hq e1 e2 hk hk' hs hl hG).1
  rw [(C86_prefix_same std q k s s').1 x h] at this
  cases this

/-- the conditions of `C86_false` are met by the collection of the examples for C66 and the query that is a blank -/
example : ValidColl coll34 ∧ Suits17 coll34 ∧ HasLost coll34 1 ∧ IsText [32] ∧ completeTerms [32] = [] ∧ lastTerm [32] = [] := by
  have h1 : AmongLast coll34 16 [98, 104] := by
    have h : (Pre.run coll34).terms[33]'(by decide +kernel) = [98, 104] := by decide +kernel
    rw [← h]
    exact coll34_lost (by omega) _
  exact ⟨coll34_valid, coll34_suits.toSuits17, ⟨[[98, 104]], by decide +kernel, _, by simp, h1⟩, by decide, by decide, by decide⟩

end AC.Props
