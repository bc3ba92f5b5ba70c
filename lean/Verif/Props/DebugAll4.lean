import Verif.Proofs.DebugAll4
import Verif.Props.DebugAll
import Verif.Props.DebugType4
/-!
# C89 for the index type 4, and the answers of types 3 and 4 with every assertion in place
-/
namespace AC.Props
open AC Spec

/-- **C89**, type 4 with any block size `m`: with all assertions, building succeeds with the same index, and every search that answers without assertions
answers with them, with the same results.

Partial: numbers of terms or of completions that are multiples of 17 are excluded, as are collections with document 0 only, the document ids 2^32-2 and
2^32-1, and values of `k` above 15. -/
theorem C89_type4_partial (std : StdLib) {C : Coll} (hC : ValidColl C) (hw : Suits4 C) (m : Nat) (mem : Nat → W) :
    ∃ x, Index4.buildA std m (Pre.run C) mem = .ok x ∧ Index4.build std m (Pre.run C) mem = .ok x ∧ ∀ q k s, IsText q → 1 ≤ k → k ≤ MAX_K → Scratch.WF s →
      SameSearch (x.prefixTopkA std q k s) (x.prefixTopk std q k s) ∧ SameSearch (x.conjTopkA std q k s) (x.conjTopk std q k s) := by
  have h := hC.ready
  obtain ⟨x, docss, h1, h2⟩ := Index4.exists h hw.toSuits3 std m mem
  obtain ⟨n, hn, h17⟩ := hw.terms
  rw [hC.ready.numTerms_eq hn] at h17
  have hc17 : (Pre.run C).mapped.length % 17 ≠ 0 := by rw [hC.ready.length_mapped]; exact hw.count
  obtain ⟨h3, h4⟩ := Index4.build_inBits h hc17 h1
  refine ⟨x, Index4.buildA_stays h std m mem x h1, h1, fun q k s hq hk hk' hs => ⟨?_, ?_⟩⟩
  · exact sameSearch (Base.prefixTopkA_stays h std h17 hc17 h2.base h3 h2.dict hq hk hk' hs) (Base.prefix_spec std h h2.base h2.dict h2.built hq hk hk' hs)
  · obtain ⟨S, -, hS⟩ := Index4.conj_spec h std h2 hw.ids hq
    exact (hS q hq rfl (fun _ => Iff.rfl) k hk hk' s hs).sameSearch (Index4.conjTopkA_stays h std h17 hc17 hw.ids h2 h3 h4 hq hk hk' hs)

/-- the collection of the examples is such a collection -/
example : ValidColl sampleColl ∧ Suits4 sampleColl := ⟨sampleColl_valid, sampleColl_suits4⟩

/-- with blocks of at least two postings -/
example (std : StdLib) (mem : Nat → W) : ∃ x, Index4.buildA std 2 (Pre.run sampleColl) mem = .ok x := by
  obtain ⟨x, h, -⟩ := C89_type4_partial std sampleColl_valid sampleColl_suits4 2 mem
  exact ⟨x, h⟩

/-- With all assertions, conjunctive search with type 3 answers as claimed by C05, when the texts fit. -/
theorem C89_answer3_partial (std : StdLib) {C : Coll} (hC : ValidColl C) (hw : Suits3 C) (mem : Nat → W) :
    ∃ x, Index3.buildA (Pre.run C) mem = .ok x ∧ ∀ q k s, IsText q → 1 ≤ k → k ≤ MAX_K → Scratch.WF s → LastOk C (lastTerm q) →
      (∀ r ∈ C, k * (joined r.2).length + 2 * MAX_CHARS ≤ POOL_SIZE) →
      ∃ s' res, x.conjTopkA std q k s = .ok s' ∧ s'.pool.resultsD = .ok res ∧ Answer C (ConjMatch C (completeTerms q) (lastTerm q)) k res := by
  obtain ⟨x, h1, h2, h3⟩ := C89_type3_partial std hC hw mem
  obtain ⟨x', h4, h6⟩ := C05_exact std hC hw mem
  rw [h2] at h4
  cases h4
  refine ⟨x, h1, ?_⟩
  intro q k s hq hk hk' hs hl hroom
  exact (h3 q k s hq hk hk' hs).2.both ((h6 q k s hq hk hk' hs).congr (fun r _ => ConjFound_iff hl r.2)) (room_of hk hroom)

/-- with the collection of the examples, the empty query and `k = 1` -/
example (std : StdLib) (mem : Nat → W) (s : Scratch) (hs : s.WF) :
    ∃ x s' res, Index3.buildA (Pre.run sampleColl) mem = .ok x ∧ x.conjTopkA std [] 1 s = .ok s' ∧ s'.pool.resultsD = .ok res := by
  obtain ⟨x, h1, h2⟩ := C89_answer3_partial std sampleColl_valid sampleColl_suits.to3 mem
  obtain ⟨s', res, e, f, -⟩ := h2 [] 1 s (by intro c hc; cases hc) (by decide) (by decide) hs (fun _ _ _ => Or.inl rfl) (by decide)
  exact ⟨x, s', res, h1, e, f⟩

/-- with more than 15 results requested, the first assertion of both searches fails, for every index, query and state -/
theorem C89_k4 (std : StdLib) (q : Str) (k : Nat) (hk : MAX_K < k) (s : Scratch) (x : Index4) :
    x.prefixTopkA std q k s = .error .aborted ∧ x.conjTopkA std q k s = .error .aborted := by
  refine ⟨(C89_k std q k hk s).2.1 x.toBase, ?_⟩
  unfold Index4.conjTopkA analyseD
  rw [show AC.check (k ≤ MAX_K) = .error .aborted from if_neg (by omega)]
  rfl

/-- the values of `k` that the program accepts on its command line and that no search accepts -/
example : MAX_K < 16 := by decide

end AC.Props
