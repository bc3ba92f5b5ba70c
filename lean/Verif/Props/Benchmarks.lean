import Verif.Proofs.Benchmarks
import Verif.Props.Trie
/-!
# C71 and C72: what the benchmarks of the searches measure
-/
namespace AC.Props
open AC Spec

/-! ## C71 -/

section C71
variable {C : Coll} {run : StdLib → Ask → Scratch → M Scratch}

/-- What the program prints: the number of the queries, which are the lines of the input, up to the number asked for, with shortened last terms; and the number of
the results that a new object returns for all these queries together. Or some query has too long results, as in C05. -/
def Reports (run : StdLib → Ask → Scratch → M Scratch) (std : StdLib) (conj : Bool) (k p n : Nat) (ls : List Str) (o : M (Nat × Nat)) : Prop :=
  ∃ qs : List Str, qs.length = min n ls.length ∧ (∀ (i : Nat) (line q : Str), ls[i]? = some line → qs[i]? = some q → Shortened p (2 ^ 149) line q) ∧
    ((o = .error .oob ∧ ∃ q ∈ qs, run std ⟨conj, q, k⟩ Scratch.fresh = .error .oob) ∨
      ∃ A : List (List (Nat × Str)), All2 (fun q res => Returns run std ⟨conj, q, k⟩ res) qs A ∧
        o = .ok (min n ls.length, (A.map List.length).sum))

theorem reports_of (std : StdLib) (hst : Steady run std) (conj : Bool) {k : Nat} (hk : 1 ≤ k ∧ k ≤ 15) {p : Nat} (hp : p ≤ 2 ^ 149) {text : Str} {ls : List Str}
    (h : Lines text ls) (n : Nat) (hl : ∀ l ∈ ls.take n, l ≠ [] ∧ l.length < 2 ^ 24 - 4 ∧ IsText l) {s : Scratch} (hs : Visited run s) :
    Reports run std conj k p n ls (Bench.queryBenchmark (fun q s => run std ⟨conj, q, k⟩ s) p n (.ofText text) s) := by
  obtain ⟨qs, h1, h2, h3⟩ := C53_queries hp h n (fun l hm => ⟨(hl l hm).1, (hl l hm).2.1⟩)
  refine ⟨qs, h2, h3, ?_⟩
  rcases Bench.queryBenchmark_spec hst conj hk h1 (Bench.loadQueries_text h (fun l hm => (hl l hm).2.2) h1) hs with h | ⟨A, e, hA⟩
  · exact .inl h
  · exact .inr ⟨A, hA, by rw [e, h2]⟩

/-- **C71**, types 1, 2 and 3: the benchmarks of the two searches report the number of the queries, and the number of the results that an object made from the
index returns for these queries when each of them is the first that it is asked. The five runs over the same object do not change this. -/
theorem C71_reported (hC : ValidColl C) (hi : IsIndex C run) (std : StdLib) (conj : Bool) {k : Nat} (hk : 1 ≤ k ∧ k ≤ 15) {p : Nat} (hp : p ≤ 2 ^ 149)
    {text : Str} {ls : List Str} (h : Lines text ls) (n : Nat) (hl : ∀ l ∈ ls.take n, l ≠ [] ∧ l.length < 2 ^ 24 - 4 ∧ IsText l) :
    Reports run std conj k p n ls (Bench.queryBenchmark (fun q s => run std ⟨conj, q, k⟩ s) p n (.ofText text) Scratch.fresh) :=
  reports_of std (fun a ha _ hs => C31_history hC hi std std a ha hs .fresh) conj hk hp h n hl .fresh

/-- **C71**, type 4. -/
theorem C71_type4 (hC : ValidColl C) (hw : Suits4 C) {std₀ : StdLib} {m : Nat} {mem : Nat → W} {x : Index4}
    (hb : Index4.build std₀ m (Pre.run C) mem = .ok x) (std : StdLib) (conj : Bool) {k : Nat} (hk : 1 ≤ k ∧ k ≤ 15) {p : Nat} (hp : p ≤ 2 ^ 149)
    {text : Str} {ls : List Str} (h : Lines text ls) (n : Nat) (hl : ∀ l ∈ ls.take n, l ≠ [] ∧ l.length < 2 ^ 24 - 4 ∧ IsText l) :
    Reports x.ask std conj k p n ls (Bench.queryBenchmark (fun q s => x.ask std ⟨conj, q, k⟩ s) p n (.ofText text) Scratch.fresh) :=
  reports_of std (fun a ha _ hs => C31_type4 hC hw hb std a ha hs .fresh) conj hk hp h n hl .fresh

/-- an index and an input of two lines -/
example (mem : Nat → W) : (∃ x : Index1, IsIndex sampleColl x.ask) ∧ Lines [98, 10, 97, 98, 32, 99] [[98], [97, 98, 32, 99]] ∧
    ∀ l ∈ ([[98], [97, 98, 32, 99]] : List Str).take 7, l ≠ [] ∧ l.length < 2 ^ 24 - 4 ∧ IsText l := by
  obtain ⟨x, h1, _⟩ := Index1.exists sampleColl_valid.ready sampleColl_suits.toSuits1 mem
  exact ⟨⟨x, .type1 sampleColl_suits.toSuits1 h1⟩, .next (l := [98]) (by decide) (.last (by decide) (by decide)), by decide⟩

end C71

/-! ## C72 -/

/-- the range computed for a query is that of the completions with property `P` -/
def IsRangeOf (C : Coll) (P : List Str → Prop) (r : Range) : Prop := RangeOf C P (r = Range.invalid) r.b r.e

theorem IsRangeOf.mem {C : Coll} {P : List Str → Prop} {r : Range} (h : IsRangeOf C P r) {i : Nat} (hi : i < C.length) (hp : P C[i].2) :
    r.b ≤ i ∧ i < r.e := by
  rcases h with ⟨_, h⟩ | ⟨_, _, h⟩
  · exact absurd hp (h _ (List.getElem_mem hi))
  · exact (h i hi).mpr hp

/-- two properties with the same range hold of the same completions -/
theorem IsRangeOf.iff {C : Coll} {P Q : List Str → Prop} {r : Range} (h : IsRangeOf C P r) (h' : IsRangeOf C Q r) {e : Nat × List Str} (he : e ∈ C) :
    P e.2 ↔ Q e.2 := by
  obtain ⟨i, hi, rfl⟩ := List.getElem_of_mem he
  rcases h with ⟨e1, h⟩ | ⟨e1, _, h⟩
  · rcases h' with ⟨_, h'⟩ | ⟨e2, _, _⟩
    · exact ⟨fun hp => absurd hp (h _ he), fun hp => absurd hp (h' _ he)⟩
    · subst e1; simp [Range.invalid] at e2
  · rcases h' with ⟨e2, _⟩ | ⟨_, _, h'⟩
    · subst e2; simp [Range.invalid] at e1
    · rw [← h i hi, ← h' i hi]

/-- What the benchmark of `locate_prefix` looks up in the trie for queries of known terms, when the first term of the dictionary is not among those found for
the last term of the query: every run computes, for every query, the range of the completions that start with the complete terms and one of the
terms *before* the terms that the last term of the query stands for.
Missing from the claim: that these are the completions that the query matches, which is false (`C72_false`, `C72_false_fc`); queries with unknown terms or with the
first term of the dictionary; the type `fc`. -/
theorem C72_trie_partial {C : Coll} (hC : ValidColl C) (h17 : (Pre.run C).terms.length % 17 ≠ 0) (qs : List Str) (hq : ∀ q ∈ qs, LooksUp C q)
    (hf : ∀ q ∈ qs, ∀ x, IsFirstTerm C x → ¬ Reaches C (lastTerm q) x) :
    ∃ d T, FcDict.build (Pre.run C).terms = .ok d ∧ Trie.build (Pre.run C).levels ((Pre.run C).mapped.map (·.2)) = .ok T ∧
      ∀ buf : Str, buf.length = FcDict.bufSize → ∃ rs, Bench.locatePrefixTrie d T qs buf = .ok (List.replicate 5 rs) ∧
        All2 (fun q r => IsRangeOf C (PrefixBefore C (completeTerms q) (lastTerm q)) r) qs rs := by
  have h := hC.ready
  obtain ⟨d, d1, R⟩ := h.dict_build h17
  obtain ⟨T, t1, t2, _⟩ := Props.C13_trie ((Pre.run C).mapped.map (·.2)) h.validIds h.nonempty_mapped (Pre.run C).levels
    (by
      obtain ⟨r, hr, he⟩ := h.files.levels
      rw [h.snd_mapped]
      exact ⟨_, List.mem_map.mpr ⟨r, hr, rfl⟩, by simpa using he⟩)
    (by
      rw [h.snd_mapped]
      intro c hc
      obtain ⟨r, hr, rfl⟩ := List.mem_map.mp hc
      simpa using h.files.lt_levels r hr)
  refine ⟨d, T, d1, t1, fun buf hb => ?_⟩
  obtain ⟨ls, l1, l2⟩ := Bench.lookupsOf_spec h R qs hq buf hb
  have hlen : ((Pre.run C).mapped.map (·.2)).length = C.length := by rw [List.length_map, h.length_mapped]
  have key : ∃ rs, All2 (fun l r => Trie.locatePrefix T l.1 l.2 = .ok r) ls rs ∧
      All2 (fun q r => IsRangeOf C (PrefixBefore C (completeTerms q) (lastTerm q)) r) qs rs := by
    clear l1
    induction l2 with
    | nil => exact ⟨[], .nil, .nil⟩
    | @cons q l qs ls hl _ ih =>
        obtain ⟨rs, i1, i2⟩ := ih (fun q hm => hq q (List.mem_cons_of_mem _ hm)) (fun q hm => hf q (List.mem_cons_of_mem _ hm))
        have hall : ∀ t ∈ completeTerms q, t ∈ (Pre.run C).terms := fun t ht => (h.isTerm t).mp ((hq q (by simp)).known t ht)
        have hpos := hl.range.pos h (hf q (by simp))
        have hle := hl.range.le
        have hlt := hl.range.lt
        have hsz : (Pre.run C).terms.length < 2 ^ 30 := by have := h.termCount_le; have := h.coll.size; omega
        obtain ⟨r, r1, r2⟩ := t2 l.1 l.2.b l.2.e (by rw [hl.pfx]; exact h.pfx_small hall) hpos hle (by omega)
        refine ⟨r :: rs, .cons r1 i1, .cons ?_ i2⟩
        rw [hl.pfx] at r2
        rcases r2 with ⟨e1, e2⟩ | ⟨e1, e2, e3⟩
        · refine .inl ⟨e1, ?_⟩
          intro r' hr' hp
          refine e2 (r'.2.map (rankOf (Pre.run C).terms)) ?_ ((h.match_before hall hl.range (h.mem hr')).mpr hp)
          rw [h.snd_mapped]
          exact List.mem_map.mpr ⟨r', hr', rfl⟩
        · refine .inr ⟨e1, by omega, ?_⟩
          intro i hi
          rw [e3 i (by omega), h.getElem_snd hi]
          exact h.match_before hall hl.range (h.mem (List.getElem_mem hi))
  obtain ⟨rs, k1, k2⟩ := key
  refine ⟨rs, ?_, k2⟩
  rw [Bench.locatePrefixTrie, l1, M.ok_bind]
  exact Bench.lookupRuns_trie k1 5

/-- **C72 is false**: the ranges that the benchmark computes are not those of the completions that the query matches, whenever some completion
starts with the complete terms of the query and the greatest of the terms that its last term stands for. -/
theorem C72_false {C : Coll} (hC : ValidColl C) (h17 : (Pre.run C).terms.length % 17 ≠ 0) {q : Str} (hq : LooksUp C q)
    (hf : ∀ x, IsFirstTerm C x → ¬ Reaches C (lastTerm q) x) {x : Str} (hx : Reaches C (lastTerm q) x)
    (hgreatest : ∀ y, IsTerm C y → Reaches C (lastTerm q) y → ¬ x < y) {e : Nat × List Str} (he : e ∈ C) (hm : (completeTerms q ++ [x]) <+: e.2) :
    ∃ d T, FcDict.build (Pre.run C).terms = .ok d ∧ Trie.build (Pre.run C).levels ((Pre.run C).mapped.map (·.2)) = .ok T ∧
      ∀ buf : Str, buf.length = FcDict.bufSize → ∃ r, Bench.locatePrefixTrie d T [q] buf = .ok (List.replicate 5 [r]) ∧
        ¬ IsRangeOf C (PrefixFound C (completeTerms q) (lastTerm q)) r := by
  obtain ⟨d, T, h1, h2, h3⟩ := C72_trie_partial hC h17 [q] (by simpa using hq) (by simpa using hf)
  refine ⟨d, T, h1, h2, fun buf hb => ?_⟩
  obtain ⟨rs, g1, g2⟩ := h3 buf hb
  cases g2 with
  | @cons _ r _ rs' hr htl =>
      cases htl
      refine ⟨r, g1, fun hc => ?_⟩
      obtain ⟨x', y, hfo, hy, hp⟩ := (hr.iff hc he).mpr ⟨x, hx, hm⟩
      have : x' = x := by
        obtain ⟨s, hs⟩ := hm
        obtain ⟨t, ht⟩ := hp
        rw [← hs] at ht
        simp only [List.append_assoc, List.singleton_append] at ht
        have := List.append_cancel_left ht
        exact (List.cons.inj this).1
      subst this
      exact hgreatest y hfo.2.1 hy hfo.2.2.1

/-- **C72 is false** for the type `fc` in one more way: when the last term of the query stands for one term, and there is no completion with the term before it, then
the first run changes the lookup. The second run looks up a prefix of one more term. -/
theorem C72_false_fc {C : Coll} (hC : ValidColl C) (h17 : (Pre.run C).terms.length % 17 ≠ 0) (hc17 : (Pre.run C).mapped.length % 17 ≠ 0) {q : Str}
    (hq : LooksUp C q) (hone : ∀ x y, IsTerm C x → IsTerm C y → Reaches C (lastTerm q) x → Reaches C (lastTerm q) y → x = y)
    (hno : ∀ r ∈ C, ¬ PrefixBefore C (completeTerms q) (lastTerm q) r.2) :
    ∃ d D m, FcDict.build (Pre.run C).terms = .ok d ∧ IntDict.build (Pre.run C).univ (Pre.run C).mapped = .ok (D, m) ∧
      ∀ (buf : Str) (cbuf : Ids), buf.length = FcDict.bufSize → cbuf.length = IntDict.bufSize → ∃ pfx r x cbuf', Bench.lookupsOf d [q] buf = .ok [(pfx, r)] ∧
        Bench.lookupPass (IntDict.locatePrefix D) [(pfx, r)] cbuf = .ok ([Range.invalid], [(pfx ++ [x], r)], cbuf') := by
  have h := hC.ready
  obtain ⟨d, d1, R⟩ := h.dict_build h17
  have hu : ∀ r ∈ (Pre.run C).mapped, r.1 < (Pre.run C).univ := by
    intro r hr
    have : r.1 ∈ (Pre.run C).mapped.map (·.1) := List.mem_map.mpr ⟨r, hr, rfl⟩
    rw [h.fst_mapped] at this
    obtain ⟨r', hr', he⟩ := List.mem_map.mp this
    rw [← he]; exact h.files.lt_univ r' hr'
  obtain ⟨D, m, i1, i2, _⟩ := IntDict.build_spec h.validIds hu (by rw [h.fst_mapped]; exact hC.docs) hc17
  refine ⟨d, D, m, d1, i1, fun buf cbuf hb hcb => ?_⟩
  obtain ⟨ls, l1, l2⟩ := Bench.lookupsOf_spec h R [q] (by simpa using hq) buf hb
  cases l2 with
  | @cons _ l _ ls' hl htl =>
      cases htl
      have hle := hl.range.le
      have hlt := hl.range.lt
      have hbe : l.2.b = l.2.e := by
        have hb' : l.2.b < (Pre.run C).terms.length := by omega
        have h1 := hone _ _ ((h.isTerm _).mpr (List.getElem_mem hb')) ((h.isTerm _).mpr (List.getElem_mem hlt))
          ((hl.range.iff _ hb').mp ⟨Nat.le_refl _, hle⟩) ((hl.range.iff _ hlt).mp ⟨hle, Nat.le_refl _⟩)
        have e1 := (nodup_of_strict h.files.terms).idxOf_getElem l.2.b hb'
        have e2 := (nodup_of_strict h.files.terms).idxOf_getElem l.2.e hlt
        rw [← e1, ← e2, h1]
      have hsz : (Pre.run C).terms.length < 2 ^ 30 := by have := h.termCount_le; have := h.coll.size; omega
      have hall : ∀ t ∈ completeTerms q, t ∈ (Pre.run C).terms := fun t ht => (h.isTerm t).mp (hq.known t ht)
      obtain ⟨r, pfx', cbuf', f1, _, f3⟩ := IntDict.locatePrefix_exact h.validIds i2 (pfx := l.1) hle (by omega) cbuf (by rw [hcb]; decide)
      refine ⟨l.1, l.2, l.2.e, cbuf', l1, ?_⟩
      have hnone : ∀ i (hi : i < ((Pre.run C).mapped.map (·.2)).length), ¬ MatchIds l.1 l.2.b l.2.e ((Pre.run C).mapped.map (·.2))[i] := by
        intro i hi hm
        have hi' : i < C.length := by rw [List.length_map, h.length_mapped] at hi; exact hi
        rw [hl.pfx, h.getElem_snd hi'] at hm
        exact hno _ (List.getElem_mem hi') ((h.match_before hall hl.range (h.mem (List.getElem_mem hi'))).mp hm)
      rw [Bench.lookupPass, f1, M.ok_bind]
      rcases f3 with ⟨e1, e2, _⟩ | ⟨e1, e2, _, e3⟩
      · rw [e1, e2, if_pos hbe]; rfl
      · exact absurd ((e3 r.b (by omega)).mp ⟨by omega, e1⟩).1 (hnone _ _)

theorem sample_isTerm {x : Str} (h : IsTerm sampleColl x) : x = [97, 98] ∨ x = [98] ∨ x = [99] := by
  have h := (sampleColl_valid.ready.isTerm x).mp h
  rw [show (Pre.run sampleColl).terms = [[97, 98], [98], [99]] by decide +kernel] at h
  simpa using h

/-- the hypotheses of `C72_trie_partial` and `C72_false`, with the query "c" -/
example : LooksUp sampleColl [99] ∧ (∀ x, IsFirstTerm sampleColl x → ¬ Reaches sampleColl (lastTerm [99]) x) ∧ Reaches sampleColl (lastTerm [99]) [99] ∧
    (∀ y, IsTerm sampleColl y → Reaches sampleColl (lastTerm [99]) y → ¬ [99] < y) := by
  have hl : lastTerm [99] = [99] := by decide +kernel
  have hr : Reaches sampleColl (lastTerm [99]) [99] := ⟨by rw [hl]; exact List.prefix_refl _, fun _ => .inr hl⟩
  refine ⟨⟨by decide, by rw [show completeTerms [99] = [] by decide +kernel]; simp, [99], ⟨(5, [[99], [98], [98]]), by decide, by decide⟩, hr⟩, ?_, hr, ?_⟩
  · rintro x ⟨h1, h2⟩ h3
    rw [hl] at h3
    rcases sample_isTerm h1 with rfl | rfl | rfl
    · exact absurd h3.1 (by decide)
    · exact absurd h3.1 (by decide)
    · exact h2 [98] ⟨(0, [[98]]), by decide, by decide⟩ (by decide)
  · intro y hy _
    rcases sample_isTerm hy with rfl | rfl | rfl <;> decide

/-- the hypotheses of `C72_false_fc`, with the query "ab" -/
example : LooksUp sampleColl [97, 98] ∧ (Pre.run sampleColl).mapped.length % 17 ≠ 0 ∧
    (∀ x y, IsTerm sampleColl x → IsTerm sampleColl y → Reaches sampleColl (lastTerm [97, 98]) x → Reaches sampleColl (lastTerm [97, 98]) y → x = y) ∧
    ∀ r ∈ sampleColl, ¬ PrefixBefore sampleColl (completeTerms [97, 98]) (lastTerm [97, 98]) r.2 := by
  have hl : lastTerm [97, 98] = [97, 98] := by decide +kernel
  have hone : ∀ x, IsTerm sampleColl x → Reaches sampleColl (lastTerm [97, 98]) x → x = [97, 98] := by
    intro x hx h
    rw [hl] at h
    rcases sample_isTerm hx with rfl | rfl | rfl
    · rfl
    · exact absurd h.1 (by decide)
    · exact absurd h.1 (by decide)
  refine ⟨⟨by decide, by rw [show completeTerms [97, 98] = [] by decide +kernel]; simp, [97, 98], ⟨(4, [[97, 98], [98]]), by decide, by decide⟩, ⟨by rw [hl]; exact List.prefix_refl _, fun _ => .inr hl⟩⟩, by decide +kernel, ?_, ?_⟩
  · intro x y hx hy h h'
    rw [hone x hx h, hone y hy h']
  · rintro r _ ⟨x, y, hf, hy, _⟩
    have := hone y hf.2.1 hy
    subst this
    have h3 := hf.2.2.1
    rcases sample_isTerm hf.1 with rfl | rfl | rfl
    · exact absurd h3 (by decide)
    · exact absurd h3 (by decide)
    · exact absurd h3 (by decide)

/-- "c" asked of the sample: the completion "c b b" is not in the range computed, and that of the type `trie` has the completions that start with "b" -/
example : ValidColl sampleColl ∧ (Pre.run sampleColl).terms.length % 17 ≠ 0 ∧ (5, [[99], [98], [98]]) ∈ sampleColl ∧
    (completeTerms [99] ++ [[99]]) <+: [[99], [98], [98]] ∧
    (do let d ← FcDict.build (Pre.run sampleColl).terms
        let T ← Trie.build (Pre.run sampleColl).levels ((Pre.run sampleColl).mapped.map Prod.snd)
        Bench.locatePrefixTrie d T [[99]] (List.replicate FcDict.bufSize 0)) = .ok (List.replicate 5 [⟨2, 4⟩]) :=
  ⟨sampleColl_valid, by decide, by decide, by decide, by decide +kernel⟩

end AC.Props
