import Verif.Proofs.LettersBlocks
import Verif.Props.Letters
import Verif.Props.Renumber4
/-!
# C101: other letters in the same order, and conjunctive search of type 4
-/
namespace AC.Props
open AC Spec

section
variable {f : Nat → Nat} (hf : Ordered f) {C : Coll}
include hf

/-- **C101** when the order of the letters stays, type 4 with the same block size, conjunctive search, also when the results are not complete (C06) or have repetitions (C07).
Missing: complete terms that are known, and a completion with all of them that has terms of two of the blocks that are looked at and is found in one of them only: then the result
depends on the heap of the standard library. -/
theorem C101_blocks_partial (hC : ValidColl C) (ht : ∀ r ∈ C, ∀ t ∈ r.2, IsText (rename f t)) (hw : Suits4 C) {std₀ std₀' : StdLib} {m : Nat}
    {mem mem' : Nat → W} {x x' : Index4} (hb : Index4.build std₀ m (Pre.run C) mem = .ok x) (hb' : Index4.build std₀' m (Pre.run (renameColl f C)) mem' = .ok x')
    {B : List (List Str)} (hB : IsBlocks C m B) (std std' : StdLib) (q : Str) (k : Nat) (ha : Ask.Ok ⟨true, q, k⟩) (ha' : IsText (rename f q)) (hset : Settled C B q)
    {s s' t t' : Scratch} {res res' : List (Nat × Str)} (hs : Visited x.ask s) (hs' : Visited x'.ask s') (h1 : x.ask std ⟨true, q, k⟩ s = .ok t) (h2 : t.pool.results = .ok res)
    (h3 : x'.ask std' ⟨true, rename f q, k⟩ s' = .ok t') (h4 : t'.pool.results = .ok res') : res' = res.map fun r => (r.1, rename f r.2) := by
  have hD := renameColl_valid hf hC ht
  have hw' : Suits4 (renameColl f C) := ⟨renameColl_suits3 hf hw.toSuits3, by
    intro r hr
    obtain ⟨s, hs, rfl⟩ := (renamed_renameColl hf r).mp hr
    exact hw.ids s hs⟩
  obtain ⟨S, r, rfl⟩ := conj4_results hC hw hb hB std q k ha hs h1 h2
  obtain ⟨S', r', rfl⟩ := conj4_results hD hw' hb' (isBlocks_rename hf hB) std' (rename f q) k ⟨ha', ha.2⟩ hs' h3 h4
  rw [completeTerms_rename hf.renaming, lastTerm_rename hf.renaming] at r'
  obtain ⟨S₁, rfl, g⟩ := result4_rename hf r'
  rw [result4_unique hC.docs hset g r, ← List.map_take, List.map_map, List.map_map]
  refine List.map_congr_left fun e _ => ?_
  show (e.1, joined (renameAll f e.2)) = (e.1, rename f (joined e.2))
  rw [joined_rename hf.renaming]

end

/-- "ab c" becomes "bc d", with a known complete term, and blocks of at least 100 postings -/
example (std : StdLib) (mem : Nat → W) : ∃ x x' : Index4, Index4.build std 100 (Pre.run sampleColl) mem = .ok x ∧ Index4.build std 100 (Pre.run (renameColl nextLetter sampleColl)) mem = .ok x' ∧
    ∃ t res t' res', x.ask std ⟨true, [97, 98, 32, 99], 3⟩ Scratch.fresh = .ok t ∧ t.pool.results = .ok res ∧ x'.ask std ⟨true, [98, 99, 32, 100], 3⟩ Scratch.fresh = .ok t' ∧
      t'.pool.results = .ok res' ∧ res' = res.map fun r => (r.1, rename nextLetter r.2) := by
  have ht : ∀ r ∈ sampleColl, ∀ t ∈ r.2, IsText (rename nextLetter t) := by decide
  obtain ⟨hv, _, _, hs3⟩ := C101_valid nextLetter_ordered sampleColl_valid ht
  have hw' : Suits4 (renameColl nextLetter sampleColl) := ⟨hs3 sampleColl_suits.to3, by decide⟩
  obtain ⟨x, _, hb, _⟩ := Index4.exists sampleColl_valid.ready sampleColl_suits.to3 std 100 mem
  obtain ⟨x', _, hb', _⟩ := Index4.exists hv.ready hw'.toSuits3 std 100 mem
  have ha : Ask.Ok ⟨true, [97, 98, 32, 99], 3⟩ := ⟨show IsText [97, 98, 32, 99] by decide, show 1 ≤ 3 by decide, show 3 ≤ MAX_K by decide⟩
  have ha' : Ask.Ok ⟨true, [98, 99, 32, 100], 3⟩ := ⟨show IsText [98, 99, 32, 100] by decide, show 1 ≤ 3 by decide, show 3 ≤ MAX_K by decide⟩
  obtain ⟨t, h1⟩ := C36_type4_partial sampleColl_valid sampleColl_suits4 hb std _ ha (show 3 ≤ 8 by decide) .fresh
  obtain ⟨res, h2, _⟩ := C36_needed4 sampleColl_valid sampleColl_suits4 hb std _ ha .fresh h1
  obtain ⟨t', h3⟩ := C36_type4_partial hv hw' hb' std _ ha' (show 3 ≤ 8 by decide) .fresh
  obtain ⟨res', h4, _⟩ := C36_needed4 hv hw' hb' std _ ha' .fresh h3
  refine ⟨x, x', hb, hb', t, res, t', res', h1, h2, h3, h4, C101_blocks_partial nextLetter_ordered sampleColl_valid ht sampleColl_suits4 hb hb' sampleColl_blocks.2 std std
    [97, 98, 32, 99] 3 ha (by decide) (.inr ?_) .fresh .fresh h1 h2 h3 h4⟩
  rintro r _ _ ⟨b, hb, _, g⟩ b' hb' _ _
  rw [List.mem_singleton.mp hb', ← List.mem_singleton.mp hb]
  exact g

/-- "b" becomes "c", with three blocks, of at least 3 postings -/
example (std : StdLib) (mem : Nat → W) : ∃ x x' : Index4, Index4.build std 3 (Pre.run sampleColl) mem = .ok x ∧ Index4.build std 3 (Pre.run (renameColl nextLetter sampleColl)) mem = .ok x' ∧
    ∃ t res t' res', x.ask std ⟨true, [98], 3⟩ Scratch.fresh = .ok t ∧ t.pool.results = .ok res ∧ x'.ask std ⟨true, [99], 3⟩ Scratch.fresh = .ok t' ∧
      t'.pool.results = .ok res' ∧ res' = res.map fun r => (r.1, rename nextLetter r.2) := by
  have ht : ∀ r ∈ sampleColl, ∀ t ∈ r.2, IsText (rename nextLetter t) := by decide
  obtain ⟨hv, _, _, hs3⟩ := C101_valid nextLetter_ordered sampleColl_valid ht
  have hw' : Suits4 (renameColl nextLetter sampleColl) := ⟨hs3 sampleColl_suits.to3, by decide⟩
  obtain ⟨x, _, hb, _⟩ := Index4.exists sampleColl_valid.ready sampleColl_suits.to3 std 3 mem
  obtain ⟨x', _, hb', _⟩ := Index4.exists hv.ready hw'.toSuits3 std 3 mem
  have ha : Ask.Ok ⟨true, [98], 3⟩ := ⟨show IsText [98] by decide, show 1 ≤ 3 by decide, show 3 ≤ MAX_K by decide⟩
  have ha' : Ask.Ok ⟨true, [99], 3⟩ := ⟨show IsText [99] by decide, show 1 ≤ 3 by decide, show 3 ≤ MAX_K by decide⟩
  obtain ⟨t, h1⟩ := C36_type4_partial sampleColl_valid sampleColl_suits4 hb std _ ha (show 3 ≤ 8 by decide) .fresh
  obtain ⟨res, h2, _⟩ := C36_needed4 sampleColl_valid sampleColl_suits4 hb std _ ha .fresh h1
  obtain ⟨t', h3⟩ := C36_type4_partial hv hw' hb' std _ ha' (show 3 ≤ 8 by decide) .fresh
  obtain ⟨res', h4, _⟩ := C36_needed4 hv hw' hb' std _ ha' .fresh h3
  exact ⟨x, x', hb, hb', t, res, t', res', h1, h2, h3, h4, C101_blocks_partial nextLetter_ordered sampleColl_valid ht sampleColl_suits4 hb hb' sampleColl_blocks.1 std std
    [98] 3 ha (by decide) (.inl (by simp [show completeTerms [98] = [] by decide])) .fresh .fresh h1 h2 h3 h4⟩

end AC.Props
