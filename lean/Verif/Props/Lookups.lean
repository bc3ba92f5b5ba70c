import Verif.Proofs.Lookups
import Verif.Props.Benchmarks
/-!
# C72: what the benchmark of `locate_prefix` looks up, exactly
-/
namespace AC.Props
open AC Spec

/-- What the benchmark of `locate_prefix` computes with the trie for every query: it takes the complete terms up to the first unknown one, which then stands for the last
term; every run returns the range of the completions found for the terms before those that are meant, where the end of a completion comes before the first term. -/
theorem C72_trie_exact {C : Coll} (hC : ValidColl C) (h17 : (Pre.run C).terms.length % 17 ≠ 0) (qs : List Str) (hq : ∀ q ∈ qs, IsText q) :
    ∃ d T, FcDict.build (Pre.run C).terms = .ok d ∧ Trie.build (Pre.run C).levels ((Pre.run C).mapped.map (·.2)) = .ok T ∧
      ∀ buf : Str, buf.length = FcDict.bufSize → ∃ rs, Bench.locatePrefixTrie d T qs buf = .ok (List.replicate 5 rs) ∧
        All2 (fun q r => ∃ done last, StopsAt C q done last ∧ IsRangeOf C (Shifted C done last) r) qs rs := by
  have h := hC.ready
  obtain ⟨d, d1, R⟩ := h.dict_build h17
  have hL : Trie.Compl ((Pre.run C).mapped.map (·.2)) := ⟨h.validIds.sorted, fun s hs x hx => (h.validIds.elems s hs x hx).1, h.nonempty_mapped⟩
  have hcount := h.validIds.count
  have hsh : Trie.Shape (Pre.run C).levels ((Pre.run C).mapped.map (·.2)) := by
    constructor
    · rw [h.snd_mapped]
      intro c hc
      obtain ⟨r, hr, rfl⟩ := List.mem_map.mp hc
      simpa using h.files.lt_levels r hr
    · obtain ⟨r, hr, he⟩ := h.files.levels
      rw [h.snd_mapped]
      exact ⟨_, List.mem_map.mpr ⟨r, hr, rfl⟩, by simpa using he⟩
  obtain ⟨T, t1, t2⟩ := Trie.build_spec hL hsh (fun s hs x hx => by have := (h.validIds.elems s hs x hx).2; omega) (by omega)
  refine ⟨d, T, d1, t1, fun buf hb => ?_⟩
  obtain ⟨ls, l1, l2⟩ := Bench.lookupsOf_all h R qs hq buf hb
  have hlen : ((Pre.run C).mapped.map (·.2)).length = C.length := by rw [List.length_map, h.length_mapped]
  have hsz : (Pre.run C).terms.length < 2 ^ 30 := by have := h.termCount_le; have := h.coll.size; omega
  have key : ∃ rs, All2 (fun l r => Trie.locatePrefix T l.1 l.2 = .ok r) ls rs ∧
      All2 (fun q r => ∃ done last, StopsAt C q done last ∧ IsRangeOf C (Shifted C done last) r) qs rs := by
    clear l1 hq
    induction l2 with
    | nil => exact ⟨[], .nil, .nil⟩
    | @cons q l qs ls hl _ ih =>
        obtain ⟨rs, i1, i2⟩ := ih
        obtain ⟨done, last, hl⟩ := hl
        have hall : ∀ t ∈ done, t ∈ (Pre.run C).terms := fun t ht => (h.isTerm t).mp (hl.stops.known t ht)
        have hsm : ∀ x ∈ l.1, 0 < x ∧ x < 2 ^ 32 := by rw [hl.pfx]; exact h.pfx_small hall
        rcases hl.range with ⟨g1, g2⟩ | g
        · refine ⟨Range.invalid :: rs, .cons (by rw [g1]; exact Trie.locate_invalid t2 hsm) i1, .cons ⟨done, last, hl.stops, .inl ⟨rfl, ?_⟩⟩ i2⟩
          rintro r _ (⟨_, y, hf, hy, _⟩ | ⟨⟨x, hx, hr⟩, _⟩)
          · exact g2 y hf.2.1 hy
          · exact g2 x hx.1 hr
        · have hle := g.le
          have hlt := g.lt
          obtain ⟨r, r1, r2⟩ := Trie.locate_all t2 hL hsh hsm hle (by omega)
          refine ⟨r :: rs, .cons r1 i1, .cons ⟨done, last, hl.stops, ?_⟩ i2⟩
          rw [hl.pfx] at r2
          rcases r2 with ⟨e1, e2⟩ | ⟨e1, e2, e3⟩
          · refine .inl ⟨e1, ?_⟩
            intro r' hr' hp
            refine e2 (r'.2.map (rankOf (Pre.run C).terms)) ?_ ((h.match_shifted hall g (h.mem hr')).mpr hp)
            rw [h.snd_mapped]
            exact List.mem_map.mpr ⟨r', hr', rfl⟩
          · refine .inr ⟨e1, by omega, ?_⟩
            intro i hi
            rw [e3 i (by omega), h.getElem_snd hi]
            exact h.match_shifted hall g (h.mem (List.getElem_mem hi))
  obtain ⟨rs, k1, k2⟩ := key
  refine ⟨rs, ?_, k2⟩
  rw [Bench.locatePrefixTrie, l1, M.ok_bind]
  exact Bench.lookupRuns_trie k1 5

/-- Asked of the sample, with the terms "ab", "b" and "c": "b ab" finds the completion "b"; for "x b", whose first term is unknown, and for "b x" nothing is found. -/
example : ValidColl sampleColl ∧ (Pre.run sampleColl).terms.length % 17 ≠ 0 ∧
    (do let d ← FcDict.build (Pre.run sampleColl).terms
        let T ← Trie.build (Pre.run sampleColl).levels ((Pre.run sampleColl).mapped.map Prod.snd)
        Bench.locatePrefixTrie d T [[98, 32, 97, 98], [120, 32, 98], [98, 32, 120]] (List.replicate FcDict.bufSize 0)) =
      .ok (List.replicate 5 [⟨2, 3⟩, Range.invalid, Range.invalid]) :=
  ⟨sampleColl_valid, by decide, by decide +kernel⟩

/-- What the benchmark of `locate_prefix` computes with the type `fc` for every query: run `k` returns the range of the completions found for the terms before those that are
meant, after the complete terms of the query and the terms that the runs before it have added. A run adds a term to the query when it finds nothing and one term is meant. -/
theorem C72_fc_exact {C : Coll} (hC : ValidColl C) (h17 : (Pre.run C).terms.length % 17 ≠ 0) (hc17 : (Pre.run C).mapped.length % 17 ≠ 0) (qs : List Str)
    (hq : ∀ q ∈ qs, IsText q) :
    ∃ d D m, FcDict.build (Pre.run C).terms = .ok d ∧ IntDict.build (Pre.run C).univ (Pre.run C).mapped = .ok (D, m) ∧
      ∀ (buf : Str) (cbuf : Ids), buf.length = FcDict.bufSize → cbuf.length = IntDict.bufSize → ∃ rss, Bench.locatePrefixFc d D qs buf cbuf = .ok rss ∧ rss.length = 5 ∧
        ∀ k rs, rss[k]? = some rs → All2 (fun q r => ∃ done last xs, StopsAt C q done last ∧ Added C done last k xs ∧
          IsRangeOf C (ShiftedFc C (done ++ xs) last) r) qs rs := by
  have h := hC.ready
  obtain ⟨d, d1, R⟩ := h.dict_build h17
  have hu : ∀ r ∈ (Pre.run C).mapped, r.1 < (Pre.run C).univ := by
    intro r hr
    have : r.1 ∈ (Pre.run C).mapped.map (·.1) := List.mem_map.mpr ⟨r, hr, rfl⟩
    rw [h.fst_mapped] at this
    obtain ⟨r', hr', he⟩ := List.mem_map.mp this
    rw [← he]; exact h.files.lt_univ r' hr'
  obtain ⟨D, m, i1, i2, _⟩ := IntDict.build_spec h.validIds hu (by rw [h.fst_mapped]; exact hC.docs) hc17
  refine ⟨d, D, m, d1, i1, fun buf cbuf hb hcb => ?_⟩
  obtain ⟨ls, l1, l2⟩ := Bench.lookupsOf_all h R qs hq buf hb
  have hls : All2 (FcState C (Pre.run C) 0) qs ls := by
    clear l1 hq
    induction l2 with
    | nil => exact .nil
    | cons hl _ ih => obtain ⟨done, last, hl⟩ := hl; exact .cons (FcState.init h hl) ih
  obtain ⟨rss, e1, e2, e3⟩ := Bench.lookupRuns_fc h (by decide) i2 5 0 hls hcb
  refine ⟨rss, ?_, e2, ?_⟩
  · rw [Bench.locatePrefixFc, l1, M.ok_bind]
    exact e1
  · intro k rs hk
    have := e3 k rs hk
    rwa [Nat.zero_add] at this

/-- **C72 is false** for the type `fc` in one more way: the runs do not compute the same. The last term of the query stands for one term, `x` is the term before it, and the
first of all the completions is the only one that begins with the complete terms and `x`; after them it has `x` once more and nothing else. The first run finds nothing, and the
others find that completion. -/
theorem C72_false_runs {C : Coll} (hC : ValidColl C) (h17 : (Pre.run C).terms.length % 17 ≠ 0) (hc17 : (Pre.run C).mapped.length % 17 ≠ 0) {q : Str} (hq : IsText q)
    (hk : ∀ t ∈ completeTerms q, IsTerm C t) {x : Str} (hx : BeforeOnly C (lastTerm q) x) (hfirst : IsFirstCompletion C (completeTerms q ++ [x, x]))
    (honly : ∀ r ∈ C, (completeTerms q ++ [x]) <+: r.2 → r.2 = completeTerms q ++ [x, x]) :
    ∃ d D m, FcDict.build (Pre.run C).terms = .ok d ∧ IntDict.build (Pre.run C).univ (Pre.run C).mapped = .ok (D, m) ∧
      ∀ (buf : Str) (cbuf : Ids), buf.length = FcDict.bufSize → cbuf.length = IntDict.bufSize →
        Bench.locatePrefixFc d D [q] buf cbuf = .ok [[Range.invalid], [⟨0, 1⟩], [⟨0, 1⟩], [⟨0, 1⟩], [⟨0, 1⟩]] := by
  have h := hC.ready
  obtain ⟨d, D, m, h1, h2, h3⟩ := C72_fc_exact hC h17 hc17 [q] (by simpa using hq)
  refine ⟨d, D, m, h1, h2, fun buf cbuf hb hcb => ?_⟩
  obtain ⟨rss, g1, g2, g3⟩ := h3 buf cbuf hb hcb
  obtain ⟨y, hxy, hy, hyonly⟩ := hx
  have hbef : ∀ x', BeforeOnly C (lastTerm q) x' → x' = x := by
    rintro x' ⟨y', hf, hy', _⟩
    have := hyonly y' hf.2.1 hy'
    subst this
    obtain ⟨m1, m2, m3⟩ := h.follows.mp hf
    obtain ⟨m4, m5, m6⟩ := h.follows.mp hxy
    exact rankOf_inj m1 m4 (by omega)
  have hpb : ∀ done c, PrefixBefore C done (lastTerm q) c → (done ++ [x]) <+: c := by
    rintro done c ⟨x', y', hf, hy', hp⟩
    have := hyonly y' hf.2.1 hy'
    subst this
    have := hbef x' ⟨y', hf, hy', hyonly⟩
    subst this
    exact hp
  have hnot : ∀ r ∈ C, ¬ ShiftedFc C (completeTerms q) (lastTerm q) r.2 := by
    rintro r hr ⟨e1, e2⟩
    have e3 := honly r hr (hpb _ _ e1)
    obtain ⟨x', y', _, _, e4⟩ := e2 (by rw [e3]; exact hfirst)
    rw [e3] at e4
    have := congrArg List.length e4
    simp at this
  have hfound : ShiftedFc C (completeTerms q ++ [x]) (lastTerm q) (completeTerms q ++ [x, x]) :=
    ⟨⟨x, y, hxy, hy, by simp⟩, fun _ => ⟨x, y, hxy, ⟨hxy.2.1, hy, fun z hz hr hlt => by rw [hyonly z hz hr] at hlt; exact FC.lt_irrefl' _ hlt⟩, by simp⟩⟩
  have hrun : ∀ k rs, rss[k]? = some rs → rs = [if k = 0 then Range.invalid else ⟨0, 1⟩] := by
    intro k rs hrs
    have ha := g3 k rs hrs
    cases ha with
    | @cons _ r _ rs' hr htl =>
        cases htl
        obtain ⟨done, last, xs, hs, had, hR⟩ := hr
        obtain ⟨rfl, rfl⟩ : done = completeTerms q ∧ last = lastTerm q := by
          rcases hs.stop with hs | ⟨rest, hs1, hs2⟩
          · exact hs
          · exact absurd (hk last (by rw [hs1]; simp)) hs2
        have hxs : xs = if k = 0 then [] else [x] := by
          have hst := had.stop
          have hall : ∀ x' ∈ xs, x' = x := fun x' hm => hbef x' (had.same x' hm)
          match xs with
          | [] =>
              split
              · rfl
              · rename_i hk0
                exfalso
                rcases hst with hst | ⟨_, ⟨r', hr', hst⟩ | hst⟩
                · exact hk0 hst.symm
                · rw [List.append_nil] at hst; exact hnot r' hr' hst
                · exact hst x ⟨y, hxy, hy, hyonly⟩
          | [x1] =>
              rw [if_neg (by rcases hst with hst | ⟨hst, _⟩ <;> simp at hst <;> omega), hall x1 (by simp)]
          | x1 :: x2 :: xs' =>
              exfalso
              have := had.before 1 (by simp)
              rw [List.take_succ_cons, List.take_zero, hall x1 (by simp)] at this
              obtain ⟨d0, hd0⟩ := hfirst
              exact this (d0, completeTerms q ++ [x, x]) (List.mem_of_mem_head? hd0) hfound
        rw [hxs] at hR
        by_cases hk0 : k = 0
        · rw [if_pos hk0, List.append_nil] at hR
          rw [if_pos hk0]
          rcases hR with ⟨e, _⟩ | ⟨e1, e2, e3⟩
          · rw [e]
          · exact absurd ((e3 r.b (by omega)).mp ⟨Nat.le_refl _, e1⟩) (hnot _ (List.getElem_mem _))
        · rw [if_neg hk0] at hR
          rw [if_neg hk0]
          obtain ⟨d0, hd0⟩ := hfirst
          have hlen : 0 < C.length := by cases C with
            | nil => simp at hd0
            | cons => simp
          have h0 : C[0].2 = completeTerms q ++ [x, x] := by
            have : C.head? = some C[0] := by cases C with
              | nil => simp at hlen
              | cons => rfl
            rw [this] at hd0
            rw [Option.some.inj hd0]
          rcases hR with ⟨_, e⟩ | ⟨e1, e2, e3⟩
          · exact absurd (h0 ▸ hfound) (e _ (List.getElem_mem hlen))
          · have p0 := (e3 0 hlen).mpr (h0 ▸ hfound)
            have hr1 : r.e = 1 := by
              apply Classical.byContradiction
              intro hne
              have hi : 1 < C.length := by omega
              obtain ⟨q1, _⟩ := (e3 1 hi).mp ⟨by omega, by omega⟩
              have q2 := honly _ (List.getElem_mem hi) ((by simp : (completeTerms q ++ [x]) <+: (completeTerms q ++ [x] ++ [x])).trans (hpb _ _ q1))
              have := (List.pairwise_iff_getElem.mp hC.sorted) 0 1 (by simpa using hlen) (by simpa using hi) (by omega)
              simp only [List.getElem_map] at this
              rw [h0, q2] at this
              exact List.lt_irrefl _ this
            obtain ⟨b, e⟩ := r
            simp only at p0 hr1 ⊢
            rw [hr1, show b = 0 by omega]
  rw [g1]
  congr 1
  apply List.ext_getElem?
  intro i
  rcases Nat.lt_or_ge i 5 with hi | hi
  · have hlt : i < rss.length := by omega
    rw [List.getElem?_eq_getElem hlt, hrun i _ (List.getElem?_eq_getElem hlt)]
    match i with
    | 0 => rfl
    | 1 => rfl
    | 2 => rfl
    | 3 => rfl
    | 4 => rfl
    | n + 5 => omega
  · rw [List.getElem?_eq_none (by omega), List.getElem?_eq_none (by simpa using hi)]

/-- the completions "a a" and "b" -/
def aabColl : Coll := [(0, [[97], [97]]), (1, [[98]])]

theorem aabColl_valid : ValidColl aabColl :=
  ⟨by decide, by decide, by decide, by decide, by decide, by decide, by decide, by decide, by decide, by decide⟩

theorem aab_isTerm {x : Str} (h : IsTerm aabColl x) : x = [97] ∨ x = [98] := by
  have h := (aabColl_valid.ready.isTerm x).mp h
  rw [show (Pre.run aabColl).terms = [[97], [98]] by decide +kernel] at h
  simpa using h

/-- the hypotheses of `C72_fc_exact` and `C72_false_runs`, with the query "b" -/
example : (Pre.run aabColl).terms.length % 17 ≠ 0 ∧ (Pre.run aabColl).mapped.length % 17 ≠ 0 ∧ IsText [98] ∧ (∀ t ∈ completeTerms [98], IsTerm aabColl t) ∧
    BeforeOnly aabColl (lastTerm [98]) [97] ∧ IsFirstCompletion aabColl (completeTerms [98] ++ [[97], [97]]) ∧
    ∀ r ∈ aabColl, (completeTerms [98] ++ [[97]]) <+: r.2 → r.2 = completeTerms [98] ++ [[97], [97]] := by
  rw [show lastTerm [98] = [98] by decide +kernel, show completeTerms [98] = [] by decide +kernel]
  have ta : IsTerm aabColl [97] := ⟨(0, [[97], [97]]), by decide, by decide⟩
  have tb : IsTerm aabColl [98] := ⟨(1, [[98]]), by decide, by decide⟩
  refine ⟨by decide +kernel, by decide +kernel, by decide, by simp, ⟨[98], ⟨ta, tb, by decide, ?_⟩, ⟨List.prefix_refl _, fun _ => .inr rfl⟩, ?_⟩, ⟨0, rfl⟩, by decide⟩
  · rintro t ht ⟨h1, h2⟩
    rcases aab_isTerm ht with rfl | rfl
    · exact absurd h1 (by decide)
    · exact absurd h2 (by decide)
  · intro z hz hr
    rcases aab_isTerm hz with rfl | rfl
    · exact absurd hr.1 (by decide)
    · rfl

/-- "b" and "a" asked of them: "b" finds nothing in the first run, and "a a" in the others -/
example : (do let d ← FcDict.build (Pre.run aabColl).terms
              let (D, _) ← IntDict.build (Pre.run aabColl).univ (Pre.run aabColl).mapped
              Bench.locatePrefixFc d D [[98], [97]] (List.replicate FcDict.bufSize 0) (List.replicate IntDict.bufSize 0)) =
      .ok ([Range.invalid, Range.invalid] :: List.replicate 4 [⟨0, 1⟩, Range.invalid]) := by decide +kernel

end AC.Props
