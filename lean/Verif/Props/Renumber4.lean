import Verif.Proofs.Renumber4
import Verif.Props.Renumber
import Verif.Props.Saved
/-!
# C98: the document ids, and conjunctive search of type 4
-/
namespace AC.Props
open AC Spec

section
variable {C D : Coll}

/-- the results of conjunctive search of type 4 -/
theorem conj4_results (hC : ValidColl C) (hw : Suits4 C) {std₀ : StdLib} {m : Nat} {mem : Nat → W} {x : Index4} (hb : Index4.build std₀ m (Pre.run C) mem = .ok x)
    {B : List (List Str)} (hB : IsBlocks C m B) (std : StdLib) (q : Str) (k : Nat) (ha : Ask.Ok ⟨true, q, k⟩) {s t : Scratch} {res : List (Nat × Str)} (hs : Visited x.ask s)
    (h1 : x.ask std ⟨true, q, k⟩ s = .ok t) (h2 : t.pool.results = .ok res) : ∃ S, Result4 C B (completeTerms q) (lastTerm q) S ∧ res = (S.take k).map shown := by
  obtain ⟨_, hx⟩ := Index4.rep_of_build hC hw.toSuits3 hb
  obtain ⟨S, r1, r2⟩ := Index4.conj_spec hC.ready std hx hw.ids ha.1
  rw [C06_blocks_unique (hC.ready.blocks hx.inverted.cut) hB] at r1
  exact ⟨S, r1, (r2 q ha.1 rfl (fun _ => Iff.rfl) k ha.2.1 ha.2.2 s (type4_wf hC hw hb hs)).results h1 h2⟩

/-- **C98**, type 4, conjunctive search with the same block size, also when the results are not complete (C06). Missing: complete terms that are known, and a completion with all of
them that has terms of two of the blocks that are looked at and is found in one of them only: then the result depends on the heap of the standard library. -/
theorem C98_order_partial (hC : ValidColl C) (hD : ValidColl D) (hso : SameOrder C D) (hw : Suits4 C) (hw' : Suits4 D) {std₀ std₀' : StdLib} {m : Nat} {mem mem' : Nat → W}
    {x x' : Index4} (hb : Index4.build std₀ m (Pre.run C) mem = .ok x) (hb' : Index4.build std₀' m (Pre.run D) mem' = .ok x') {B : List (List Str)} (hB : IsBlocks C m B)
    (std std' : StdLib) (q : Str) (k : Nat) (ha : Ask.Ok ⟨true, q, k⟩) (hset : Settled C B q)
    {s s' t t' : Scratch} {res res' : List (Nat × Str)} (hs : Visited x.ask s) (hs' : Visited x'.ask s') (h1 : x.ask std ⟨true, q, k⟩ s = .ok t)
    (h2 : t.pool.results = .ok res) (h3 : x'.ask std' ⟨true, q, k⟩ s' = .ok t') (h4 : t'.pool.results = .ok res') : res'.map (·.2) = res.map (·.2) := by
  obtain ⟨S, r, rfl⟩ := conj4_results hC hw hb hB std q k ha hs h1 h2
  obtain ⟨S', r', rfl⟩ := conj4_results hD hw' hb' (isBlocks_texts hso.1 hB) std' q k ha hs' h3 h4
  have e := Result4.same_texts hC hD hso r r' hset
  simp only [shown_texts, List.map_take]
  rw [e]

theorem conjMatch_texts (ht : C.map (·.2) = D.map (·.2)) : ConjMatch C = ConjMatch D := by
  funext a l c
  have h : ∀ t, (∃ r ∈ C, t ∈ r.2) ↔ ∃ r ∈ D, t ∈ r.2 := isTerm_texts ht
  unfold ConjMatch
  simp only [h]

/-- **C98**, type 4, conjunctive search. Missing from the claim: queries that type 4 does not answer completely with both numberings (`C98_false`). The hypotheses hold for example for queries of one term whose completions are in one block. -/
theorem C98_better_partial (hC : ValidColl C) (hD : ValidColl D) {c : List Str} (hnw : NotWorse C D c) (hw : Suits4 C) (hw' : Suits4 D) {std₀ std₀' : StdLib} {m m' : Nat}
    {mem mem' : Nat → W} {x x' : Index4} (hb : Index4.build std₀ m (Pre.run C) mem = .ok x) (hb' : Index4.build std₀' m' (Pre.run D) mem' = .ok x') {B B' : List (List Str)}
    (hB : IsBlocks C m B) (hB' : IsBlocks D m' B') (std std' : StdLib) (q : Str) (k : Nat) (ha : Ask.Ok ⟨true, q, k⟩) (hl : LastOk C (lastTerm q)) (hq : Complete4 C B q)
    (hq' : Complete4 D B' q) {s s' t t' : Scratch} {res res' : List (Nat × Str)} (hs : Visited x.ask s) (hs' : Visited x'.ask s') (h1 : x.ask std ⟨true, q, k⟩ s = .ok t)
    (h2 : t.pool.results = .ok res) (h3 : x'.ask std' ⟨true, q, k⟩ s' = .ok t') (h4 : t'.pool.results = .ok res')
    {i d : Nat} (hd : (d, c) ∈ C) (hi : res[i]? = some (d, joined c)) : ∃ j d', j ≤ i ∧ (d', c) ∈ D ∧ res'[j]? = some (d', joined c) := by
  obtain ⟨S, r, rfl⟩ := conj4_results hC hw hb hB std q k ha hs h1 h2
  obtain ⟨S', r', rfl⟩ := conj4_results hD hw' hb' hB' std' q k ha hs' h3 h4
  have hl' : LastOk D (lastTerm q) := fun y hy => hl y ((isFirstTerm_texts hnw.1 y).mpr hy)
  have b := r.best hC hB hl hq.1 hq.2 k
  have b' := r'.best hD hB' hl' hq'.1 hq'.2 k
  rw [← conjMatch_texts hnw.1] at b'
  rw [List.getElem?_map, Option.map_eq_some_iff] at hi
  obtain ⟨r, hr, e⟩ := hi
  have h1' : r.1 = d := congrArg (fun z : Nat × Str => z.1) e
  have h2' : r.2 = c := hC.ready.unique (d := d) (by rw [← h1']; exact (b.sound r (List.mem_of_getElem? hr)).1) hd
  obtain ⟨j, d', hj, ej⟩ := rank_le hC hD b b' hnw (i := i) (d := d) (by rw [hr, ← h1', ← h2'])
  exact ⟨j, d', hj, (b'.sound _ (List.mem_of_getElem? ej)).1, by rw [List.getElem?_map, ej]; rfl⟩

/-- **C98 is false** for conjunctive search of type 4: a completion whose document id has become the best of those with a term of the block of the complete terms is not shown any more. -/
theorem C98_false (hD : ValidColl D) (hw' : Suits4 D) {std₀' : StdLib} {m : Nat} {mem' : Nat → W} {x' : Index4}
    (hb' : Index4.build std₀' m (Pre.run D) mem' = .ok x') {B : List (List Str)} (hB : IsBlocks D m B) (std' : StdLib) (q : Str) (k : Nat) (ha : Ask.Ok ⟨true, q, k⟩)
    {d' : Nat} {c : List Str} (hd : (d', c) ∈ D) (hkn : ∃ t ∈ completeTerms q, IsTerm D t) {b : List Str} (hbB : b ∈ B) (hall : ∀ t ∈ completeTerms q, IsTerm D t → t ∈ b)
    (hx : ∃ y ∈ c, y ∈ b) (hmin : ∀ r ∈ D, (∃ y ∈ r.2, y ∈ b) → d' ≤ r.1)
    {s' t' : Scratch} {res' : List (Nat × Str)} (hs' : Visited x'.ask s') (h3 : x'.ask std' ⟨true, q, k⟩ s' = .ok t') (h4 : t'.pool.results = .ok res') : d' ∉ res'.map (·.1) := by
  obtain ⟨S', r', rfl⟩ := conj4_results hD hw' hb' hB std' q k ha hs' h3 h4
  intro hm
  obtain ⟨e, he, h⟩ := List.mem_map.mp hm
  obtain ⟨r, hr, rfl⟩ := List.mem_map.mp he
  have hrS := List.mem_of_mem_take hr
  have : r.2 = c := hD.ready.unique (d := d') (by rw [← h]; exact r'.mem r hrS) hd
  refine ((r'.inter hkn).2.1 r hrS).2.1 ⟨b, hbB, hall, by rw [this]; exact hx, ?_⟩
  intro r₁ h1 h2
  have : r.1 = d' := h
  rw [this]
  exact hmin r₁ h1 h2

end

/-! ## Examples -/

theorem sampleSpread_suits4 : Suits4 sampleSpread := ⟨sampleSpread_suits.to3, by decide⟩

/-- conjunctive search for "b" with blocks of at least 3 postings -/
example (std : StdLib) (mem : Nat → W) : ∃ x x' : Index4, Index4.build std 3 (Pre.run sampleColl) mem = .ok x ∧ Index4.build std 3 (Pre.run sampleSpread) mem = .ok x' ∧ ∃ t res t' res',
    x.ask std ⟨true, [98], 3⟩ Scratch.fresh = .ok t ∧ t.pool.results = .ok res ∧ x'.ask std ⟨true, [98], 3⟩ Scratch.fresh = .ok t' ∧ t'.pool.results = .ok res' ∧ res'.map (·.2) = res.map (·.2) := by
  obtain ⟨x, _, hb, _⟩ := Index4.exists sampleColl_valid.ready sampleColl_suits.to3 std 3 mem
  obtain ⟨x', _, hb', _⟩ := Index4.exists sampleSpread_valid.ready sampleSpread_suits.to3 std 3 mem
  have ha : Ask.Ok ⟨true, [98], 3⟩ := ⟨show IsText [98] by decide, show 1 ≤ 3 by decide, show 3 ≤ MAX_K by decide⟩
  obtain ⟨t, h1⟩ := C36_type4_partial sampleColl_valid sampleColl_suits4 hb std _ ha (show 3 ≤ 8 by decide) .fresh
  obtain ⟨res, h2, _⟩ := C36_needed4 sampleColl_valid sampleColl_suits4 hb std _ ha .fresh h1
  obtain ⟨t', h3⟩ := C36_type4_partial sampleSpread_valid sampleSpread_suits4 hb' std _ ha (show 3 ≤ 8 by decide) .fresh
  obtain ⟨res', h4, _⟩ := C36_needed4 sampleSpread_valid sampleSpread_suits4 hb' std _ ha .fresh h3
  exact ⟨x, x', hb, hb', t, res, t', res', h1, h2, h3, h4, C98_order_partial sampleColl_valid sampleSpread_valid (sameOrder_of (by decide) (by decide)) sampleColl_suits4 sampleSpread_suits4
    hb hb' sampleColl_blocks.1 std std _ 3 ha (.inl (by simp [show completeTerms [98] = [] by decide])) .fresh .fresh h1 h2 h3 h4⟩

/-- the sample with the best id for "ab c" -/
def sampleTop : Coll := [(4, [[97, 98], [98]]), (0, [[97, 98], [99]]), (2, [[98]]), (7, [[98], [97, 98]]), (5, [[99], [98], [98]])]

theorem sampleTop_valid : ValidColl sampleTop := ⟨by decide, by decide, by decide, by decide, by decide, by decide, by decide, by decide, by decide, by decide⟩

theorem sampleTop_suits : Suits4 sampleTop :=
  ⟨Suits2.to3
    { terms := ⟨_, sampleTop_valid.ready.numTerms, by decide +kernel⟩
      doc0 := ⟨[98], ⟨(2, [[98]]), by decide, by decide⟩, by
        have : ∀ r ∈ sampleTop, r.1 = 0 → [98] ∉ r.2 := by decide
        exact fun c hc => this _ hc rfl⟩
      count := by decide }, by decide⟩

theorem sampleTop_texts : sampleColl.map (·.2) = sampleTop.map (·.2) := by decide

theorem sampleColl_complete4 : Complete4 sampleColl [[[97, 98], [98], [99]]] [97, 98, 32, 99] := by
  have hc : completeTerms [97, 98, 32, 99] = [[97, 98]] := by decide
  refine ⟨⟨_, List.mem_singleton.mpr rfl, fun y hy _ => (sampleColl_terms y).mp hy⟩, .inr ?_⟩
  rw [hc]
  rintro r hr ⟨g1, _⟩ ⟨b, hb, _, _, g4⟩
  rw [List.mem_singleton] at hb
  subst hb
  have h0 := g4 (0, [[98]]) (by decide) ⟨[98], by decide, by decide⟩
  have hm : [97, 98] ∈ r.2 := g1 _ (by simp) ((sampleColl_terms _).mpr (by simp))
  have : ∀ r ∈ sampleColl, [97, 98] ∈ r.2 → 0 < r.1 := by decide
  have := this r hr hm
  simp only at h0
  omega

/-- **C98 is false**: the query "ab c", conjunctive search, any standard library: with the id 2 the completion "ab c" is shown, with the better id 0 it is not. -/
theorem C98_shown_then_not (std : StdLib) (mem : Nat → W) : NotWorse sampleColl sampleTop [[97, 98], [99]] ∧ ∃ x x' : Index4, Index4.build std 100 (Pre.run sampleColl) mem = .ok x ∧
    Index4.build std 100 (Pre.run sampleTop) mem = .ok x' ∧ ∃ t res t' res', x.ask std ⟨true, [97, 98, 32, 99], 3⟩ Scratch.fresh = .ok t ∧ t.pool.results = .ok res ∧
      x'.ask std ⟨true, [97, 98, 32, 99], 3⟩ Scratch.fresh = .ok t' ∧ t'.pool.results = .ok res' ∧ (2, [97, 98, 32, 99]) ∈ res ∧ 0 ∉ res'.map (·.1) := by
  refine ⟨notWorse_of (by decide) (by decide), ?_⟩
  obtain ⟨x, _, hb, _⟩ := Index4.exists sampleColl_valid.ready sampleColl_suits.to3 std 100 mem
  obtain ⟨x', _, hb', _⟩ := Index4.exists sampleTop_valid.ready sampleTop_suits.toSuits3 std 100 mem
  have ha : Ask.Ok ⟨true, [97, 98, 32, 99], 3⟩ := ⟨show IsText [97, 98, 32, 99] by decide, show 1 ≤ 3 by decide, show 3 ≤ MAX_K by decide⟩
  obtain ⟨t, h1⟩ := C36_type4_partial sampleColl_valid sampleColl_suits4 hb std _ ha (show 3 ≤ 8 by decide) .fresh
  obtain ⟨res, h2, _⟩ := C36_needed4 sampleColl_valid sampleColl_suits4 hb std _ ha .fresh h1
  obtain ⟨t', h3⟩ := C36_type4_partial sampleTop_valid sampleTop_suits hb' std _ ha (show 3 ≤ 8 by decide) .fresh
  obtain ⟨res', h4, _⟩ := C36_needed4 sampleTop_valid sampleTop_suits hb' std _ ha .fresh h3
  have hc : completeTerms [97, 98, 32, 99] = [[97, 98]] := by decide
  have hlt : lastTerm [97, 98, 32, 99] = [99] := by decide
  refine ⟨x, x', hb, hb', t, res, t', res', h1, h2, h3, h4, ?_, ?_⟩
  · obtain ⟨S, r, rfl⟩ := conj4_results sampleColl_valid sampleColl_suits4 hb sampleColl_blocks.2 std _ 3 ha .fresh h1 h2
    have b := r.best sampleColl_valid sampleColl_blocks.2 (lastOk_of sampleColl_valid (by decide +kernel)) sampleColl_complete4.1 sampleColl_complete4.2 3
    rw [hc, hlt] at b
    refine List.mem_map.mpr ⟨(2, [[97, 98], [99]]), ?_, by decide⟩
    apply Classical.byContradiction
    intro hn
    obtain ⟨g1, g2⟩ := b.complete _ (by decide) ⟨by simp, [99], by decide, by decide⟩ hn
    have hf : ∀ r ∈ sampleColl, [97, 98] ∈ r.2 → ¬ r.1 < 2 := by decide
    cases hS : S.take 3 with
    | nil => rw [hS] at g1; simp at g1
    | cons f F =>
        have hm : f ∈ S.take 3 := by rw [hS]; simp
        obtain ⟨k1, k2⟩ := b.sound f hm
        exact hf f k1 (k2.1 _ (by simp) ((sampleColl_terms _).mpr (by simp))) (g2 f hm)
  · refine C98_false sampleTop_valid sampleTop_suits hb' (isBlocks_texts sampleTop_texts sampleColl_blocks.2) std _ 3 ha (d' := 0) (c := [[97, 98], [99]]) (by decide) ?_
      (List.mem_singleton.mpr rfl) ?_ ⟨[97, 98], by decide, by decide⟩ (fun _ _ _ => Nat.zero_le _) .fresh h3 h4
    · rw [hc]
      exact ⟨_, List.mem_singleton.mpr rfl, (isTerm_texts sampleTop_texts _).mp ((sampleColl_terms _).mpr (by simp))⟩
    · intro t ht _
      rw [hc] at ht
      rw [List.mem_singleton.mp ht]
      decide

/-- the hypotheses of `C98_better_partial`: the query "c", with a better id for "c b b" and one block -/
example : Complete4 sampleColl [[[97, 98], [98], [99]]] [99] ∧ Complete4 sampleBetter [[[97, 98], [98], [99]]] [99] ∧ NotWorse sampleColl sampleBetter [[99], [98], [98]] ∧
    Suits4 sampleBetter ∧ IsBlocks sampleBetter 100 [[[97, 98], [98], [99]]] := by
  have ht : sampleColl.map (·.2) = sampleBetter.map (·.2) := by decide
  have hno : completeTerms [99] = [] := by decide
  exact ⟨⟨⟨_, List.mem_singleton.mpr rfl, fun y hy _ => (sampleColl_terms y).mp hy⟩, .inl (by rw [hno]; simp)⟩,
    ⟨⟨_, List.mem_singleton.mpr rfl, fun y hy _ => (sampleColl_terms y).mp ((isTerm_texts ht y).mpr hy)⟩, .inl (by rw [hno]; simp)⟩, notWorse_of (by decide) (by decide),
    ⟨sampleBetter_suits.to3, by decide⟩, isBlocks_texts ht sampleColl_blocks.2⟩

end AC.Props
