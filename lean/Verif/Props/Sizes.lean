import Verif.Props.Saved
/-!
# C60: the sizes that are printed

`x.bytes` is the total that `print_stats` prints and `x.stats` all of the numbers of bytes, in the order in which they are printed; `x.counts` are
the numbers by which they are divided.
-/
namespace AC.Props
open AC Spec

/-- **C60**, type 1: the total that is printed is the length of the file. -/
theorem C60_file1 {F : Files} {mem : Nat → W} {x : Index1} (h : Index1.build F mem = .ok x) :
    ∃ file, save (fun V => V.index1) x = .ok file ∧ x.bytes = .ok file.length := by
  obtain ⟨_, h2⟩ := Index1.build_put (mem' := mem) h
  obtain ⟨n, hn⟩ := Index1.bytes_ok h2
  obtain ⟨file, h3, _, h5, _⟩ := (Trip.index1 h2 hn mem).save_load
  exact ⟨file, h3, by rw [hn, h5.1]⟩

/-- **C60**, type 2: for every index, built or not -/
theorem C60_file2 (x : Index2) : ∃ file, save (fun V => V.index2) x = .ok file ∧ x.bytes = file.length := by
  obtain ⟨file, h3, _, h5, _⟩ := (Trip.index2 x (fun _ => 0)).save_load
  exact ⟨file, h3, h5.1.symm⟩

/-- **C60**, type 3 -/
theorem C60_file3 (x : Index3) : ∃ file, save (fun V => V.index3) x = .ok file ∧ x.bytes = file.length := by
  obtain ⟨file, h3, _, h5, _⟩ := (Trip.index3 x (fun _ => 0)).save_load
  exact ⟨file, h3, h5.1.symm⟩

/-- **C60**, type 4 -/
theorem C60_file4 (x : Index4) : ∃ file, save (fun V => V.index4) x = .ok file ∧ x.bytes = file.length := by
  obtain ⟨file, h3, _, h5, _⟩ := (Trip.index4 x (fun _ => 0)).save_load
  exact ⟨file, h3, h5.1.symm⟩

/-- **C60**, type 1: the parts add up to the total, and the parts of the parts to these; 4 bytes of the trie, 8 of the dictionary and 16 of each of the
other two indexes are for numbers that are not in the parts. -/
theorem C60_parts1 {F : Files} {mem : Nat → W} {x : Index1} (h : Index1.build F mem = .ok x) :
    ∃ total compl nodes ptrs left sizes docs minimal dict dictData dictPtrs inv invData invPtrs fwd fwdData fwdPtrs,
      x.stats = .ok [total, compl, nodes, ptrs, left, sizes, docs, minimal, dict, dictData, dictPtrs, inv, invData, invPtrs, fwd, fwdData, fwdPtrs] ∧
      AddsUp total 0 [compl, docs, minimal, dict, inv, fwd] ∧ AddsUp compl 4 [nodes, ptrs, left, sizes] ∧ AddsUp dict 8 [dictData, dictPtrs] ∧
      AddsUp inv 16 [invData, invPtrs] ∧ AddsUp fwd 16 [fwdData, fwdPtrs] := by
  obtain ⟨_, h2⟩ := Index1.build_put (mem' := mem) h
  obtain ⟨c, p, e1, e2, e3⟩ := Trie.parts h2
  have hs : x.stats = .ok [c + x.docs.bytes + x.minimal.bytes + x.dict.bytes 4 1 + x.inverted.bytes + x.forward.bytes, c,
      Trie.nodesBytes x.completions, p, Trie.leftBytes x.completions, Trie.sizesBytes x.completions, x.docs.bytes, x.minimal.bytes,
      x.dict.bytes 4 1, x.dict.dataBytes 1, x.dict.pointerBytes 4, x.inverted.bytes, x.inverted.dataBytes, x.inverted.pointerBytes,
      x.forward.bytes, x.forward.dataBytes, x.forward.pointerBytes] := by
    unfold Index1.stats Index1.bytes
    rw [e1, e2]
    simp only [M.ok_bind]
  refine ⟨_, _, _, _, _, _, _, _, _, _, _, _, _, _, _, _, _, hs, ?_, ?_, ?_, ?_, ?_⟩
  · simp only [AddsUp, List.sum_cons, List.sum_nil]; omega
  · simp only [AddsUp, List.sum_cons, List.sum_nil]; omega
  · simp only [AddsUp, List.sum_cons, List.sum_nil, FC.bytes, FC.dataBytes, FC.pointerBytes]; omega
  · simp only [AddsUp, List.sum_cons, List.sum_nil, InvIdx.bytes, InvIdx.dataBytes, InvIdx.pointerBytes]; omega
  · simp only [AddsUp, List.sum_cons, List.sum_nil, FwdIdx.bytes, FwdIdx.dataBytes, FwdIdx.pointerBytes]; omega

/-- **C60**, type 2 -/
theorem C60_parts2 (x : Index2) : ∃ total compl complData complPtrs docs minimal dict dictData dictPtrs inv invData invPtrs lexids,
    x.stats = [total, compl, complData, complPtrs, docs, minimal, dict, dictData, dictPtrs, inv, invData, invPtrs, lexids] ∧
    AddsUp total 0 [compl, docs, minimal, dict, inv, lexids] ∧ AddsUp compl 8 [complData, complPtrs] ∧ AddsUp dict 8 [dictData, dictPtrs] ∧
    AddsUp inv 16 [invData, invPtrs] := by
  refine ⟨_, _, _, _, _, _, _, _, _, _, _, _, _, rfl, ?_, ?_, ?_, ?_⟩
  · simp only [AddsUp, List.sum_cons, List.sum_nil, Index2.bytes]; omega
  · simp only [AddsUp, List.sum_cons, List.sum_nil, FC.bytes, FC.dataBytes, FC.pointerBytes]; omega
  · simp only [AddsUp, List.sum_cons, List.sum_nil, FC.bytes, FC.dataBytes, FC.pointerBytes]; omega
  · simp only [AddsUp, List.sum_cons, List.sum_nil, InvIdx.bytes, InvIdx.dataBytes, InvIdx.pointerBytes]; omega

/-- **C60**, type 3 -/
theorem C60_parts3 (x : Index3) : ∃ total compl docs dict inv invData invPtrs lexids,
    x.stats = [total, compl, docs, dict, inv, invData, invPtrs, lexids] ∧ AddsUp total 0 [compl, docs, dict, inv, lexids] ∧
    AddsUp inv 16 [invData, invPtrs] := by
  refine ⟨_, _, _, _, _, _, _, _, rfl, ?_, ?_⟩
  · simp only [AddsUp, List.sum_cons, List.sum_nil, Index3.bytes]; omega
  · simp only [AddsUp, List.sum_cons, List.sum_nil, InvIdx.bytes, InvIdx.dataBytes, InvIdx.pointerBytes]; omega

/-- **C60**, type 4 -/
theorem C60_parts4 (x : Index4) : ∃ total compl docs dict inv blocks ptrs docsB terms offsets lexids,
    x.stats = [total, compl, docs, dict, inv, blocks, ptrs, docsB, terms, offsets, lexids] ∧ AddsUp total 0 [compl, docs, dict, inv, lexids] ∧
    AddsUp inv 24 [blocks, ptrs, docsB, terms, offsets] := by
  refine ⟨_, _, _, _, _, _, _, _, _, _, _, rfl, ?_, ?_⟩
  · simp only [AddsUp, List.sum_cons, List.sum_nil, Index4.bytes]; omega
  · simp only [AddsUp, List.sum_cons, List.sum_nil, BlkIdx.bytes, BlkIdx.blocksBytes, BlkIdx.pointersBytes, BlkIdx.docsBytes, BlkIdx.termsBytes,
      BlkIdx.offsetsBytes]; omega

variable {C : Coll} {mem : Nat → W}

/-- **C60**: what the sizes are divided by is the number of completions, of different terms, of pairs of a completion and one of its terms, and of terms
of all completions with repetitions. -/
theorem C60_counts1 (hC : ValidColl C) {x : Index1} (h : Index1.build (Pre.run C) mem = .ok x) {n : Nat} (hn : NumTerms C n) :
    x.counts = [C.length, n, numPostings C, numTokens C] := by
  rw [hC.ready.numTerms_eq hn]
  exact Index1.counts_spec hC.ready h

/-- **C60**, type 2 -/
theorem C60_counts2 (hC : ValidColl C) {x : Index2} (h : Index2.build (Pre.run C) mem = .ok x) {n : Nat} (hn : NumTerms C n) :
    x.counts = [C.length, n, numPostings C] := by
  rw [hC.ready.numTerms_eq hn]
  exact Index2.counts_spec hC.ready h

/-- **C60**, type 3 -/
theorem C60_counts3 (hC : ValidColl C) {x : Index3} (h : Index3.build (Pre.run C) mem = .ok x) : x.counts = [C.length, numPostings C] :=
  Index3.counts_spec hC.ready h

/-- **C60**, type 4; the last is the number of blocks that is printed. -/
theorem C60_counts4 (hC : ValidColl C) {std : StdLib} {m : Nat} {x : Index4} (h : Index4.build std m (Pre.run C) mem = .ok x) {B : List (List Str)}
    (hB : IsBlocks C m B) : x.counts = [C.length, numPostings C, B.length] := by
  obtain ⟨B', h1, h2⟩ := Index4.counts_spec hC.ready h
  rw [h2, C06_blocks_unique h1 hB]

/-- the sample: five completions with ten terms, three of them different, in three blocks; one of the completions repeats a term -/
example (std : StdLib) (mem : Nat → W) : NumTerms sampleColl 3 ∧ IsBlocks sampleColl 3 [[[97, 98]], [[98]], [[99]]] ∧
    (∃ x : Index1, Index1.build (Pre.run sampleColl) mem = .ok x ∧ x.counts = [5, 3, 9, 10]) ∧
    (∃ x : Index4, Index4.build std 3 (Pre.run sampleColl) mem = .ok x ∧ x.counts = [5, 9, 3]) := by
  have hn : NumTerms sampleColl 3 := ⟨[[97, 98], [98], [99]], by decide, fun t => (sampleColl_terms t).symm, rfl⟩
  obtain ⟨x, h1, _⟩ := Index1.exists sampleColl_valid.ready sampleColl_suits.toSuits1 mem
  obtain ⟨w, _, h4, _⟩ := Index4.exists sampleColl_valid.ready sampleColl_suits.to3 std 3 mem
  exact ⟨hn, sampleColl_blocks.1, ⟨x, h1, C60_counts1 sampleColl_valid h1 hn⟩, ⟨w, h4, C60_counts4 sampleColl_valid h4 sampleColl_blocks.1⟩⟩

end AC.Props
