import Verif.Proofs.DebugType4
import Verif.Props.DebugSearch
import Verif.Props.Type4
/-!
# C86, type 4: building an index and searching it, built with assertions
-/
namespace AC.Props
open AC Spec

theorem _root_.AC.Shows.sameSearch {terms : List Str} {E : Coll} {w o : M Scratch} (h : Stays w o) (ho : Shows terms E o) : SameSearch w o := by
  intro s hs
  subst hs
  rcases ho with ⟨e, -⟩ | ⟨s', e, -, hr, -, -, hh⟩
  · cases e
  · cases e
    exact ⟨h s rfl, _, Pool.resultsD_stays _ (by rw [hh.offsets]; simp) _ hr, hr⟩

/-- **C86**, type 4: with assertions, building succeeds with the same index, every search that answers without assertions answers with them, with the
same results, and every search that ends with assertions ends without, in the same state.

Partial: numbers of terms or of completions that are multiples of 17 are excluded, as are collections with document 0 only, the document ids 2^32-2 and
2^32-1, and values of `k` above 15. -/
theorem C86_type4_partial (std : StdLib) {C : Coll} (hC : ValidColl C) (hw : Suits4 C) (m : Nat) (mem : Nat → W) :
    ∃ x, Index4.buildD std m (Pre.run C) mem = .ok x ∧ Index4.build std m (Pre.run C) mem = .ok x ∧ ∀ q k s, IsText q → 1 ≤ k → k ≤ MAX_K → Scratch.WF s →
      SameSearch (x.prefixTopkD std q k s) (x.prefixTopk std q k s) ∧ SameSearch (x.conjTopkD std q k s) (x.conjTopk std q k s) ∧
      ∀ s', x.conjTopkD std q k s = .ok s' → x.conjTopk std q k s = .ok s' := by
  have h := hC.ready
  obtain ⟨x, docss, h1, h2⟩ := Index4.exists h hw.toSuits3 std m mem
  obtain ⟨n, hn, h17⟩ := hw.terms
  rw [hC.ready.numTerms_eq hn] at h17
  have hc17 : (Pre.run C).mapped.length % 17 ≠ 0 := by rw [hC.ready.length_mapped]; exact hw.count
  refine ⟨x, Index4.buildD_stays h std m mem x h1, h1, fun q k s hq hk hk' hs => ⟨?_, ?_, ?_⟩⟩
  · exact sameSearch (Base.prefixTopkD_stays h std h17 hc17 h2.base h2.dict hq hk hk' hs) (Base.prefix_spec std h h2.base h2.dict h2.built hq hk hk' hs)
  · obtain ⟨S, -, hS⟩ := Index4.conj_spec h std h2 hw.ids hq
    exact (hS q hq rfl (fun _ => Iff.rfl) k hk hk' s hs).sameSearch (Index4.conjTopkD_stays h std h17 hc17 hw.ids h2 hq hk hk' hs)
  · exact Index4.conjTopkD_same h std hw.ids h2 hq hk hk' hs

/-- the collection of the examples is such a collection -/
example : ValidColl sampleColl ∧ Suits4 sampleColl := ⟨sampleColl_valid, sampleColl_suits4⟩

/-- whatever the files, when building succeeds with assertions it succeeds without, with the same index -/
theorem C86_build_same4 (std : StdLib) (m : Nat) (F : Files) (mem : Nat → W) (x : Index4) (h : Index4.buildD std m F mem = .ok x) :
    Index4.build std m F mem = .ok x := Index4.buildD_same std m F mem x h

/-- it does for the collection of the examples -/
example (std : StdLib) (mem : Nat → W) : ∃ x, Index4.buildD std 2 (Pre.run sampleColl) mem = .ok x := by
  obtain ⟨x, h, -⟩ := C86_type4_partial std sampleColl_valid sampleColl_suits4 2 mem
  exact ⟨x, h⟩

/-- with more than 15 results requested, the first assertion of both searches fails, for every index, query and state -/
theorem C86_k4 (std : StdLib) (q : Str) (k : Nat) (hk : MAX_K < k) (s : Scratch) (x : Index4) :
    x.prefixTopkD std q k s = .error .aborted ∧ x.conjTopkD std q k s = .error .aborted := by
  refine ⟨(C86_k std q k hk s).2.1 x.toBase, ?_⟩
  unfold Index4.conjTopkD analyseD
  rw [show AC.check (k ≤ MAX_K) = .error .aborted from if_neg (by omega)]
  rfl

/-- the values of `k` that the program accepts on its command line and that no search accepts -/
example : MAX_K < 16 := by decide

end AC.Props
