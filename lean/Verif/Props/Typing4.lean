import Verif.Props.Typing
/-!
# C80: typing on with type 4, conjunctive search
-/
namespace AC.Props
open AC Spec

section
variable {C : Coll}

/-- **C80**, type 4, conjunctive search. Missing from the claim: besides what is missing for the other types (`C80_conj_partial`), shorter queries that type 4 does not answer
completely: those whose last term is completed by terms of more than one block, and those that match the first document of a block (`C80_false_conj4`). -/
theorem C80_conj4_partial (hC : ValidColl C) (hw4 : Suits4 C) {std₀ : StdLib} {m : Nat} {mem : Nat → W} {x : Index4} (hb : Index4.build std₀ m (Pre.run C) mem = .ok x)
    {B : List (List Str)} (hB : IsBlocks C m B) (std std' : StdLib) (q w : Str) (k : Nat) (ha : Ask.Ok ⟨true, q, k⟩) (hw : IsText w)
    (hl : LastOk C (lastTerm q)) (hone : ∃ b ∈ B, ∀ x, IsTerm C x → lastTerm q <+: x → x ∈ b)
    (hskip : (∀ t ∈ completeTerms q, ¬ IsTerm C t) ∨ ∀ r ∈ C, ConjMatch C (completeTerms q) (lastTerm q) r.2 → ¬ Skipped C B (completeTerms q) r)
    (hkn : ∀ t ∈ completeTerms (q ++ w), IsTerm C t) {s s' t t' : Scratch} {res res' : List (Nat × Str)} (hs : Visited x.ask s)
    (hs' : Visited x.ask s') (h1 : x.ask std ⟨true, q, k⟩ s = .ok t) (h2 : t.pool.results = .ok res) (h3 : x.ask std' ⟨true, q ++ w, k⟩ s' = .ok t')
    (h4 : t'.pool.results = .ok res') : ∀ e ∈ res', Offered k res e := by
  obtain ⟨docss, hx⟩ := Index4.rep_of_build hC hw4.toSuits3 hb
  have ha' := ask_append ha hw
  obtain ⟨S, r1, r2⟩ := Index4.conj_spec hC.ready std hx hw4.ids ha.1
  obtain ⟨S', r1', r2'⟩ := Index4.conj_spec hC.ready std' hx hw4.ids ha'.1
  rw [C06_blocks_unique (hC.ready.blocks hx.inverted.cut) hB] at r1 r1'
  have e := (r2 q ha.1 rfl (fun _ => Iff.rfl) k ha.2.1 ha.2.2 s (type4_wf hC hw4 hb hs)).results h1 h2
  have e' := (r2' (q ++ w) ha'.1 rfl (fun _ => Iff.rfl) k ha.2.1 ha.2.2 s' (type4_wf hC hw4 hb hs')).results h3 h4
  subst e e'
  intro e he
  obtain ⟨r, hr, rfl⟩ := List.mem_map.mp he
  have hrS := List.mem_of_mem_take hr
  obtain ⟨b1, _, _, _, y, hy, _, hry⟩ := r1'.found hrS
  obtain ⟨c1, z, hz, hrz⟩ := conjFound_typed (c := r.2) hl hkn ⟨b1, y, hy, hry⟩
  exact (r1.best hC hB hl hone hskip k).offered (r1'.mem r hrS) ⟨c1, z, hz, hrz.1⟩

/-- **C80 is false** for conjunctive search with type 4: a completion whose document is the first of a block that has all the complete terms of a query is not among the
results, whatever their number. Typing on, as soon as there are complete terms of two blocks, it is offered. -/
theorem C80_false_conj4 (hC : ValidColl C) (hw4 : Suits4 C) {std₀ : StdLib} {m : Nat} {mem : Nat → W} {x : Index4} (hb : Index4.build std₀ m (Pre.run C) mem = .ok x)
    {B : List (List Str)} (hB : IsBlocks C m B) (std std' : StdLib) (q w : Str) (k : Nat) (ha : Ask.Ok ⟨true, q, k⟩) (hw : IsText w) {d : Nat} {c : List Str} (hc : (d, c) ∈ C)
    (hkn : ∃ t ∈ completeTerms q, IsTerm C t) (hsk : Skipped C B (completeTerms q) (d, c))
    (hm : ConjMatch C (completeTerms (q ++ w)) (lastTerm (q ++ w)) c) (hl : LastOk C (lastTerm (q ++ w)))
    (hone : ∃ b ∈ B, ∀ x, IsTerm C x → lastTerm (q ++ w) <+: x → x ∈ b)
    (htwo : ∃ u ∈ completeTerms (q ++ w), ∃ v ∈ completeTerms (q ++ w), IsTerm C u ∧ IsTerm C v ∧ ∀ b ∈ B, u ∈ b → v ∉ b)
    {s s' t t' : Scratch} {res res' : List (Nat × Str)} (hs : Visited x.ask s)
    (hs' : Visited x.ask s') (h1 : x.ask std ⟨true, q, k⟩ s = .ok t) (h2 : t.pool.results = .ok res) (h3 : x.ask std' ⟨true, q ++ w, k⟩ s' = .ok t')
    (h4 : t'.pool.results = .ok res') : Offered k res' (d, joined c) ∧ d ∉ res.map (·.1) := by
  obtain ⟨docss, hx⟩ := Index4.rep_of_build hC hw4.toSuits3 hb
  have ha' := ask_append ha hw
  obtain ⟨S, r1, r2⟩ := Index4.conj_spec hC.ready std hx hw4.ids ha.1
  obtain ⟨S', r1', r2'⟩ := Index4.conj_spec hC.ready std' hx hw4.ids ha'.1
  rw [C06_blocks_unique (hC.ready.blocks hx.inverted.cut) hB] at r1 r1'
  have e := (r2 q ha.1 rfl (fun _ => Iff.rfl) k ha.2.1 ha.2.2 s (type4_wf hC hw4 hb hs)).results h1 h2
  have e' := (r2' (q ++ w) ha'.1 rfl (fun _ => Iff.rfl) k ha.2.1 ha.2.2 s' (type4_wf hC hw4 hb hs')).results h3 h4
  subst e e'
  constructor
  · obtain ⟨u, hu, v, hv, hu', hv', hne⟩ := htwo
    refine (r1'.best hC hB hl hone (.inr fun r _ _ => ?_) k).offered hc hm
    rintro ⟨b, hbB, hall, _⟩
    exact hne b hbB (hall u hu hu') (hall v hv hv')
  · intro hmem
    obtain ⟨e, he, hd⟩ := List.mem_map.mp hmem
    obtain ⟨r, hr, rfl⟩ := List.mem_map.mp he
    have heS := List.mem_of_mem_take hr
    have hd1 : r.1 = d := hd
    have he2 : r.2 = c := hC.ready.unique (d := d) (by rw [← hd1]; exact r1.mem r heS) hc
    have : r = (d, c) := Prod.ext hd1 he2
    subst this
    exact ((r1.inter hkn).2.1 _ heS).2.1 hsk

end

theorem pairColl_blocks : IsBlocks pairColl 1 [[[97]], [[98]], [[99]]] :=
  ⟨by decide, fun t => by rw [pairColl_terms]; rfl, by decide, by decide, by decide⟩

/-- from "b c" to "b c c" in `pairColl`, with blocks of one term: `C80_false_conj4` applies -/
example (mem : Nat → W) (std : StdLib) : ∃ x t res t' res', Index4.build std 1 (Pre.run pairColl) mem = .ok x ∧ x.ask std ⟨true, [98, 32, 99], 3⟩ Scratch.fresh = .ok t ∧
    t.pool.results = .ok res ∧ x.ask std ⟨true, [98, 32, 99] ++ [32, 99], 3⟩ t = .ok t' ∧ t'.pool.results = .ok res' ∧ Offered 3 res' (0, [98, 32, 99]) ∧ 0 ∉ res.map (·.1) := by
  obtain ⟨x, docss, h1, _⟩ := Index4.exists pairColl_valid.ready pairColl_suits.toSuits3 std 1 mem
  have a2 : Ask.Ok ⟨true, [98, 32, 99], 3⟩ := ⟨by decide, by decide, by decide⟩
  have a3 : Ask.Ok ⟨true, [98, 32, 99] ++ [32, 99], 3⟩ := ⟨by decide, by decide, by decide⟩
  obtain ⟨t, e2⟩ := C36_type4_partial pairColl_valid pairColl_suits h1 std _ a2 (by decide) .fresh
  obtain ⟨res, f2, _⟩ := C36_needed4 pairColl_valid pairColl_suits h1 std _ a2 .fresh e2
  obtain ⟨t', e3⟩ := C36_type4_partial pairColl_valid pairColl_suits h1 std _ a3 (by decide) (.step .fresh a2 e2)
  obtain ⟨res', f3, _⟩ := C36_needed4 pairColl_valid pairColl_suits h1 std _ a3 (.step .fresh a2 e2) e3
  have T : ∀ t ∈ [[97], [98], [99]], IsTerm pairColl t := fun t ht => (pairColl_terms t).mpr ht
  refine ⟨x, t, res, t', res', h1, e2, f2, e3, f3, C80_false_conj4 pairColl_valid pairColl_suits h1 pairColl_blocks std std _ _ 3 a2 (by decide) (d := 0) (c := [[98], [99]]) (by decide)
    ⟨[98], by decide, T _ (by decide)⟩ ⟨[[98]], by decide, ?_, ⟨[98], by decide, by decide⟩, fun _ _ _ => Nat.zero_le _⟩ ⟨?_, [99], by decide, by decide⟩
    (lastOk_of pairColl_valid (by decide +kernel)) ⟨[[99]], by decide, ?_⟩ ⟨[98], by decide, [99], by decide, T _ (by decide), T _ (by decide), by decide⟩
    .fresh (.step .fresh a2 e2) e2 f2 e3 f3⟩
  · intro t ht _
    exact (by decide : ∀ t ∈ completeTerms [98, 32, 99], t ∈ [[98]]) t ht
  · intro t ht _
    exact (by decide : ∀ t ∈ completeTerms ([98, 32, 99] ++ [32, 99]), t ∈ [[98], [99]]) t ht
  · intro y hy
    rw [pairColl_terms] at hy
    revert y
    decide

/-- from "b" to "b a" in `pairColl`, with blocks of one term: the hypotheses of `C80_conj4_partial` -/
example (mem : Nat → W) (std : StdLib) : ∃ x t res t' res', Index4.build std 1 (Pre.run pairColl) mem = .ok x ∧ x.ask std ⟨true, [98], 3⟩ Scratch.fresh = .ok t ∧
    t.pool.results = .ok res ∧ x.ask std ⟨true, [98] ++ [32, 97], 3⟩ t = .ok t' ∧ t'.pool.results = .ok res' ∧ ∀ e ∈ res', Offered 3 res e := by
  obtain ⟨x, docss, h1, _⟩ := Index4.exists pairColl_valid.ready pairColl_suits.toSuits3 std 1 mem
  have a2 : Ask.Ok ⟨true, [98], 3⟩ := ⟨by decide, by decide, by decide⟩
  have a3 : Ask.Ok ⟨true, [98] ++ [32, 97], 3⟩ := ⟨by decide, by decide, by decide⟩
  obtain ⟨t, e2⟩ := C36_type4_partial pairColl_valid pairColl_suits h1 std _ a2 (by decide) .fresh
  obtain ⟨res, f2, _⟩ := C36_needed4 pairColl_valid pairColl_suits h1 std _ a2 .fresh e2
  obtain ⟨t', e3⟩ := C36_type4_partial pairColl_valid pairColl_suits h1 std _ a3 (by decide) (.step .fresh a2 e2)
  obtain ⟨res', f3, _⟩ := C36_needed4 pairColl_valid pairColl_suits h1 std _ a3 (.step .fresh a2 e2) e3
  refine ⟨x, t, res, t', res', h1, e2, f2, e3, f3, C80_conj4_partial pairColl_valid pairColl_suits h1 pairColl_blocks std std _ _ 3 a2 (by decide)
    (lastOk_of pairColl_valid (by decide +kernel)) ⟨[[98]], by decide, ?_⟩ (.inl ?_) ?_ .fresh (.step .fresh a2 e2) e2 f2 e3 f3⟩
  · intro y hy
    rw [pairColl_terms] at hy
    revert y
    decide
  · intro t ht
    rw [show completeTerms [98] = [] by decide] at ht
    cases ht
  · intro t ht
    exact (pairColl_terms t).mpr ((by decide : ∀ t ∈ completeTerms ([98] ++ [32, 97]), t ∈ [[97], [98], [99]]) t ht)

end AC.Props
