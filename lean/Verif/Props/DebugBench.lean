import Verif.Model.DebugBench
import Verif.Props.Programs
import Verif.Props.Answers4
import Verif.Proofs.Benchmarks
/-!
# C84: the benchmark of effectiveness, built with assertions
-/
namespace AC.Props
open AC Spec

theorem isSorted_of_le : ∀ {l : List Nat}, l.Pairwise (· ≤ ·) → Bench.isSorted l = true
  | [], _ => rfl
  | [_], _ => rfl
  | x :: y :: l, h => by
      have h' := List.pairwise_cons.mp h
      have := h'.1 y (by simp)
      rw [Bench.isSorted, if_neg (by omega)]
      exact isSorted_of_le h'.2

theorem check_true {c : Prop} [Decidable c] (h : c) : check c = .ok () := if_pos h

theorem check_false {c : Prop} [Decidable c] (h : ¬ c) : check c = .error .aborted := if_neg h

variable {C : Coll} {run run' : StdLib → Ask → Scratch → M Scratch}

/-- **C84**, types 1, 2 and 3: no assertion of the benchmark of effectiveness fails, that is, with assertions the program does what it does
without them: the conjunctive search never returns fewer results than the prefix search, and the results of both are in order. This holds for all
queries, from any state that searches lead to, also for two different types. Missing from the claim: type 4, for which it is false
(`C84_false4`). -/
theorem C84_same_partial (hC : ValidColl C) (hi : IsIndex C run) (hi' : IsIndex C run') (std std' : StdLib) {k : Nat} (hk : 1 ≤ k ∧ k ≤ 15)
    (qs : List Str) (hq : ∀ q ∈ qs, IsText q) {s1 s2 : Scratch} (hs1 : Visited run s1) (hs2 : Visited run' s2) :
    Bench.effectivenessD (fun q k s => run std ⟨false, q, k⟩ s) (fun q k s => run' std' ⟨true, q, k⟩ s) k qs s1 s2 =
    Bench.effectiveness (fun q k s => run std ⟨false, q, k⟩ s) (fun q k s => run' std' ⟨true, q, k⟩ s) k qs s1 s2 := by
  obtain ⟨pre, hp, h⟩ := hi.serves hC
  obtain ⟨pre', _, h'⟩ := hi'.serves hC
  induction qs generalizing s1 s2 with
  | nil => rfl
  | cons q qs ih =>
      have ha : Ask.Ok ⟨false, q, k⟩ := ⟨hq q (by simp), hk⟩
      have ha' : Ask.Ok ⟨true, q, k⟩ := ⟨hq q (by simp), hk⟩
      have o1 := h std ⟨false, q, k⟩ s1 ha (hs1.wf h)
      have o2 := h' std' ⟨true, q, k⟩ s2 ha' (hs2.wf h')
      rw [Bench.effectivenessD, Bench.effectiveness]
      dsimp only
      cases x1 : run std ⟨false, q, k⟩ s1 with
      | error e => rfl
      | ok t1 =>
      cases x2 : run' std' ⟨true, q, k⟩ s2 with
      | error e => rfl
      | ok t2 =>
      obtain ⟨E1, b1, e1, _, p1⟩ := o1.cases x1
      obtain ⟨E2, b2, e2, _, p2⟩ := o2.cases x2
      have m1 : MAX_K = 15 := rfl
      obtain ⟨n1, v1⟩ := p1.scores_take (by rw [(o1.wf x1).scores]; have := b1.le; dsimp only at this; omega) e1
      obtain ⟨n2, v2⟩ := p2.scores_take (by rw [(o2.wf x2).scores]; have := b2.le; dsimp only at this; omega) e2
      have hle := b1.length_le (foundBy_conj hp q k) b2
      have hs : ∀ {P : List Str → Prop} {E : Coll}, Spec.Best C P k E → Bench.isSorted (E.map (·.1)) = true := fun b =>
        isSorted_of_le (List.pairwise_map.mpr (b.sorted.imp (fun h => Nat.le_of_lt h)))
      simp only [M.ok_bind]
      rw [v1, v2, check_true (by rw [p1.offsets]; simp), check_true (by rw [p2.offsets]; simp), check_true (by omega), check_true (hs b1),
        check_true (hs b2), ih (fun q hm => hq q (List.mem_cons_of_mem _ hm)) (hs1.step ha x1) (hs2.step ha' x2)]
      rfl

/-- the hypotheses can be met: two queries to two objects made from the same index; the program has an outcome -/
example (mem : Nat → W) (std : StdLib) : ∃ (x : Index1) (n m : Nat), IsIndex sampleColl x.ask ∧
    Bench.effectivenessD (fun q k s => x.ask std ⟨false, q, k⟩ s) (fun q k s => x.ask std ⟨true, q, k⟩ s) 3 [[98], [97, 98, 32, 99]] Scratch.fresh
      Scratch.fresh = .ok (n, m) := by
  obtain ⟨x, h1, _⟩ := Index1.exists sampleColl_valid.ready sampleColl_suits.toSuits1 mem
  have hi : IsIndex sampleColl x.ask := .type1 sampleColl_suits.toSuits1 h1
  have hq : ∀ q ∈ [[98], [97, 98, 32, 99]], IsText q := by decide
  rcases C58_counts_partial sampleColl_valid hi hi std std ⟨by decide, by decide⟩ _ hq .fresh .fresh (k := 3) with ⟨_, q, hm, h⟩ | ⟨A, h, _⟩
  · obtain ⟨pre, _, hsv⟩ := hi.serves sampleColl_valid
    exfalso
    have hk : 1 ≤ 3 ∧ 3 ≤ MAX_K := by decide
    have hr : ∀ r ∈ sampleColl, 3 * List.length (joined r.2) + 2 * MAX_CHARS ≤ POOL_SIZE := by decide
    rcases h with h | h
    · obtain ⟨s, _, e, _⟩ := (hsv std ⟨false, q, 3⟩ Scratch.fresh ⟨hq q hm, hk⟩ Scratch.fresh_wf).answer (room_of hk.1 hr)
      rw [h] at e; cases e
    · obtain ⟨s, _, e, _⟩ := (hsv std ⟨true, q, 3⟩ Scratch.fresh ⟨hq q hm, hk⟩ Scratch.fresh_wf).answer (room_of hk.1 hr)
      rw [h] at e; cases e
  · exact ⟨x, _, _, hi, (C84_same_partial sampleColl_valid hi hi std std ⟨by decide, by decide⟩ _ hq .fresh .fresh (k := 3)).trans h⟩

section
variable {C : Coll} (hC : ValidColl C) (hw : Suits4 C) {std₀ : StdLib} {m : Nat} {mem : Nat → W} {x : Index4}
  (hb : Index4.build std₀ m (Pre.run C) mem = .ok x)
include hC hw hb

/-- **C84 is false** for type 4: the benchmark stops at a query whose complete terms are known and that a single completion matches, if this has the
smallest document id, prefix search finds it, and its document is the first of a block with the complete terms. -/
theorem C84_false4 {B : List (List Str)} (hB : IsBlocks C m B) (std : StdLib) (q : Str) (qs : List Str) (k : Nat) (ha : Ask.Ok ⟨false, q, k⟩)
    {s1 s2 t1 t2 : Scratch} (hs1 : Visited x.ask s1) (hs2 : Visited x.ask s2) (h1 : x.ask std ⟨false, q, k⟩ s1 = .ok t1)
    (h2 : x.ask std ⟨true, q, k⟩ s2 = .ok t2) {r : Nat × List Str} (hr : r ∈ C) (hmin : ∀ r' ∈ C, r.1 ≤ r'.1)
    (hp : PrefixFound2 C (completeTerms q) (lastTerm q) r.2) (hkn : ∃ t ∈ completeTerms q, IsTerm C t) (hsk : Skipped C B (completeTerms q) r)
    (hone : ∀ r' ∈ C, ConjMatch C (completeTerms q) (lastTerm q) r'.2 → r' = r) :
    Bench.effectivenessD (fun q k s => x.ask std ⟨false, q, k⟩ s) (fun q k s => x.ask std ⟨true, q, k⟩ s) k (q :: qs) s1 s2 = .error .aborted := by
  obtain ⟨res, f1, _⟩ := C36_needed4 hC hw hb std _ ha hs1 h1
  obtain ⟨res', f2, _⟩ := C36_needed4 hC hw hb std _ (show Ask.Ok ⟨true, q, k⟩ from ha) hs2 h2
  obtain ⟨g1, g2⟩ := C32_false4 hC hw hb hB std std q k ha hs1 hs2 h1 f1 h2 f2 hr hmin hp hkn hsk
  have hnil : res' = [] := by
    obtain ⟨docss, hx⟩ := Index4.rep_of_build hC hw.toSuits3 hb
    obtain ⟨S, r1, r2⟩ := Index4.conj_spec hC.ready std hx hw.ids ha.1
    have hres := (r2 q ha.1 rfl (fun _ => Iff.rfl) k ha.2.1 ha.2.2 s2 (type4_wf hC hw hb hs2)).results h2 f2
    subst hres
    cases e : S.take k with
    | nil => rfl
    | cons r' l =>
        exfalso
        have hm : r' ∈ S.take k := by rw [e]; simp
        have hS := List.mem_of_mem_take hm
        obtain ⟨c1, _, b, _, _, y, hy, _, hl⟩ := (r1.inter hkn).2.1 r' hS
        have := hone r' (r1.mem r' hS) ⟨fun t ht ⟨r, hr, htr⟩ => c1 t ht ⟨r, hr, htr⟩, y, hy, hl.1⟩
        subst this
        exact g2 (List.mem_map.mpr ⟨_, hm, rfl⟩)
  have l1 := Pool.results_length f1
  have l2 := Pool.results_length f2
  have hpos : 0 < res.length := List.length_pos_of_mem g1
  rw [hnil] at l2
  rw [Bench.effectivenessD]
  dsimp only
  rw [h1, h2]
  simp only [M.ok_bind]
  have o2 : ∀ (c : Bool) (s t : Scratch), Visited x.ask s → x.ask std ⟨c, q, k⟩ s = .ok t → 0 < t.pool.offsets.length := by
    intro c s t hs ht
    obtain ⟨S, _, h⟩ := type4_list hC hw hb std c ha.1
    have o := h k ha.2.1 ha.2.2 s (type4_wf hC hw hb hs)
    rw [ht] at o
    rcases o with ⟨e, _⟩ | ⟨t', e, _, _, _, _, e2⟩
    · cases e
    · cases e
      rw [e2.offsets]; simp
  rw [check_true (o2 false _ _ hs1 h1), check_true (o2 true _ _ hs2 h2), check_false (by simp at l2; omega)]
  rfl

end

/-- "a b" and "b c" in one block: with assertions, the benchmark of type 4 stops at the query `"b c"` -/
example (mem : Nat → W) (std : StdLib) : ∃ x, Index4.build std 100 (Pre.run pairColl) mem = .ok x ∧
    Bench.effectivenessD (fun q k s => x.ask std ⟨false, q, k⟩ s) (fun q k s => x.ask std ⟨true, q, k⟩ s) 3 [[98, 32, 99]] Scratch.fresh Scratch.fresh =
      .error .aborted := by
  obtain ⟨x, docss, h1, _⟩ := Index4.exists pairColl_valid.ready pairColl_suits.toSuits3 std 100 mem
  have a1 : Ask.Ok ⟨false, [98, 32, 99], 3⟩ := ⟨by decide, by decide, by decide⟩
  have a2 : Ask.Ok ⟨true, [98, 32, 99], 3⟩ := ⟨by decide, by decide, by decide⟩
  obtain ⟨t, e1⟩ := C36_type4_partial pairColl_valid pairColl_suits h1 std _ a1 (by decide) .fresh
  obtain ⟨t', e2⟩ := C36_type4_partial pairColl_valid pairColl_suits h1 std _ a2 (by decide) .fresh
  have hB : IsBlocks pairColl 100 [[[97], [98], [99]]] :=
    ⟨by decide, fun t => by rw [pairColl_terms]; rfl, by decide, by decide, by decide⟩
  have hq : completeTerms [98, 32, 99] = [[98]] ∧ lastTerm [98, 32, 99] = [99] := by decide
  refine ⟨x, h1, C84_false4 pairColl_valid pairColl_suits h1 hB std [98, 32, 99] [] 3 a1 .fresh .fresh e1 e2 (r := (0, [[98], [99]])) (by decide)
    (by decide) ?_ ?_ ?_ ?_⟩
  · rw [hq.1, hq.2]
    refine ⟨⟨[99], ⟨List.prefix_refl _, fun _ => Or.inr rfl⟩, List.prefix_refl _⟩, ?_⟩
    rintro ⟨d, hd⟩
    revert hd
    simp [pairColl]
  · rw [hq.1]
    exact ⟨[98], by decide, (pairColl_terms _).mpr (by decide)⟩
  · rw [hq.1]
    refine ⟨_, List.mem_singleton.mpr rfl, ?_, ⟨[98], by decide, by decide⟩, fun _ _ _ => Nat.zero_le _⟩
    intro t ht _
    exact (by decide : ∀ t ∈ [[98]], t ∈ [[97], [98], [99]]) t ht
  · rw [hq.1, hq.2]
    rintro r' hr' ⟨_, y, hy, hp⟩
    simp only [pairColl, List.mem_cons, List.not_mem_nil, or_false] at hr'
    rcases hr' with rfl | rfl
    · exfalso
      simp only [List.mem_cons, List.not_mem_nil, or_false] at hy
      rcases hy with rfl | rfl <;> exact absurd hp (by decide)
    · rfl

end AC.Props
