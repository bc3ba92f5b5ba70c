import Verif.Proofs.Suits
/-!
# C01 and C02: prefix search
-/
namespace AC.Props
open AC Spec

theorem lastOk_of {C : Coll} (hC : ValidColl C) {last : Str}
    (h : ∀ x ∈ (Pre.run C).terms.head?, last <+: x → last = [] ∨ last = x) : LastOk C last := by
  have hr := hC.ready
  intro x hx hp
  apply h x _ hp
  obtain ⟨i, hi, rfl⟩ := List.getElem_of_mem ((hr.isTerm x).mp hx.1)
  have := (hr.isFirst hi).mp hx
  subst this
  rw [List.head?_eq_getElem?, List.getElem?_eq_getElem hi]; rfl

/-- the completions "ab b", "ab c", "b", "b ab" and "c b b" -/
def sampleColl : Coll := [(4, [[97, 98], [98]]), (2, [[97, 98], [99]]), (0, [[98]]), (7, [[98], [97, 98]]), (5, [[99], [98], [98]])]

theorem sampleColl_valid : ValidColl sampleColl :=
  ⟨by decide, by decide, by decide, by decide, by decide, by decide, by decide, by decide, by decide, by decide⟩

theorem sampleColl_suits : Suits2 sampleColl :=
  { terms := ⟨_, sampleColl_valid.ready.numTerms, by decide +kernel⟩
    doc0 := ⟨[97, 98], ⟨(4, [[97, 98], [98]]), by decide, by decide⟩, by
      intro c hc
      simp only [sampleColl, List.mem_cons, Prod.mk.injEq, List.not_mem_nil, or_false] at hc
      rcases hc with ⟨h, _⟩ | ⟨h, _⟩ | ⟨_, rfl⟩ | ⟨h, _⟩ | ⟨h, _⟩ <;> first | decide | (exfalso; omega)⟩
    count := by decide }

theorem room_of {C : Coll} {P : List Str → Prop} {k : Nat} (hk : 1 ≤ k) (hroom : ∀ r ∈ C, k * (joined r.2).length + 2 * MAX_CHARS ≤ POOL_SIZE) :
    ∀ E, Spec.Best C P k E → room E + 2 * MAX_CHARS ≤ POOL_SIZE := by
  intro E b
  have hr : ∀ r ∈ C, (joined r.2).length ≤ (POOL_SIZE - 2 * MAX_CHARS) / k := by
    intro r hr
    have := hroom r hr
    rw [Nat.le_div_iff_mul_le hk, Nat.mul_comm]; omega
  have h3 := b.room_le hr
  have h4 := Nat.mul_div_le (POOL_SIZE - 2 * MAX_CHARS) k
  have h5 : POOL_SIZE - 2 * MAX_CHARS = 1664 := by decide
  have h6 : POOL_SIZE = 1920 := by decide
  have h7 : 2 * MAX_CHARS = 256 := by decide
  omega

/-- What prefix search with type 1 returns, for every collection, every query, every `k` up to 15 and every state left by earlier
queries: the best completions that start with the complete terms followed by a term that the dictionary finds, in increasing order
of document ids, with their texts. Nothing is accessed outside of the buffers, unless the texts do not fit in the pool. -/
theorem C01_exact (std : StdLib) {C : Coll} (hC : ValidColl C) (hw : Suits1 C) (mem : Nat → W) :
    ∃ x, Index1.build (Pre.run C) mem = .ok x ∧ ∀ q k s, IsText q → 1 ≤ k → k ≤ MAX_K → Scratch.WF s →
      Outcome C (Pre.run C).terms (PrefixFound C (completeTerms q) (lastTerm q)) k (x.prefixTopk std q k s) := by
  obtain ⟨x, h1, h2⟩ := Index1.exists hC.ready hw mem
  exact ⟨x, h1, fun q k s hq hk hk' hs => Index1.prefix_spec std hC.ready h2 hq hk hk' hs⟩

/-- **C01**: prefix search with type 1 returns the `k` best matching completions. Missing from the claim: numbers of terms that are multiples
of 17, collections where document 0 contains all the terms, queries that end with a strict beginning of the first term
(`C01_false`), and texts that do not fit in the pool. -/
theorem C01_prefix1_partial (std : StdLib) {C : Coll} (hC : ValidColl C) (hw : Suits1 C) (mem : Nat → W) :
    ∃ x, Index1.build (Pre.run C) mem = .ok x ∧ ∀ q k s, IsText q → 1 ≤ k → k ≤ MAX_K → Scratch.WF s → LastOk C (lastTerm q) →
      (∀ r ∈ C, k * (joined r.2).length + 2 * MAX_CHARS ≤ POOL_SIZE) →
      ∃ s' res, x.prefixTopk std q k s = .ok s' ∧ s'.WF ∧ s'.pool.results = .ok res ∧
        Answer C (PrefixMatch (completeTerms q) (lastTerm q)) k res := by
  obtain ⟨x, h1, h2⟩ := C01_exact std hC hw mem
  refine ⟨x, h1, ?_⟩
  intro q k s hq hk hk' hs hl hroom
  exact ((h2 q k s hq hk hk' hs).congr (fun r _ => PrefixFound_iff hl r.2)).answer (room_of hk hroom)

/-- soundness does not need all the conditions: whatever the query, every result is a matching completion with its text -/
theorem C01_sound (std : StdLib) {C : Coll} (hC : ValidColl C) (hw : Suits1 C) (mem : Nat → W) :
    ∃ x, Index1.build (Pre.run C) mem = .ok x ∧ ∀ q k s s' res, IsText q → 1 ≤ k → k ≤ MAX_K → Scratch.WF s →
      x.prefixTopk std q k s = .ok s' → s'.pool.results = .ok res → res.length ≤ k ∧ res.Pairwise (fun a b => a.1 < b.1) ∧
        ∀ e ∈ res, ∃ c, (e.1, c) ∈ C ∧ e.2 = joined c ∧ PrefixMatch (completeTerms q) (lastTerm q) c := by
  obtain ⟨x, h1, h2⟩ := C01_exact std hC hw mem
  refine ⟨x, h1, ?_⟩
  intro q k s s' res hq hk hk' hs ho hr
  obtain ⟨E, b, h⟩ := h2 q k s hq hk hk' hs
  rw [ho] at h
  rcases h with ⟨e1, _⟩ | ⟨s2, e1, _, e2, _⟩
  · simp at e1
  · cases e1
    rw [hr] at e2
    cases e2
    refine ⟨by simpa using b.le, by rw [List.pairwise_map]; exact b.sorted, ?_⟩
    intro e he
    obtain ⟨r, hr', rfl⟩ := List.mem_map.mp he
    obtain ⟨y, hy1, hy2⟩ := (b.sound r hr').2
    exact ⟨r.2, (b.sound r hr').1, rfl, y, hy1.1, hy2⟩

/-- the hypotheses of C01 hold of the sample and of the query `"b a"` with 5 results -/
example : IsText [98, 32, 97, 98] ∧ LastOk sampleColl (lastTerm [98, 32, 97, 98]) ∧ LastOk sampleColl (lastTerm [98, 32]) ∧
    (∀ r ∈ sampleColl, 5 * (joined r.2).length + 2 * MAX_CHARS ≤ POOL_SIZE) ∧ Scratch.WF Scratch.fresh ∧
    PrefixMatch (completeTerms [98, 32, 97, 98]) (lastTerm [98, 32, 97, 98]) [[98], [97, 98]] :=
  ⟨by decide, lastOk_of sampleColl_valid (by decide +kernel), lastOk_of sampleColl_valid (by decide +kernel), by decide, Scratch.fresh_wf,
    [97, 98], by decide, by decide⟩

/-- C01 is false: whatever the collection, the completions that match through the first term of the dictionary are not returned for a query that
ends with a strict beginning of that term -/
theorem C01_false (std : StdLib) {C : Coll} (hC : ValidColl C) (hw : Suits1 C) (mem : Nat → W) :
    ∃ x, Index1.build (Pre.run C) mem = .ok x ∧ ∀ q k s t c d, IsText q → 1 ≤ k → k ≤ MAX_K → Scratch.WF s → IsFirstTerm C t →
      lastTerm q <+: t → lastTerm q ≠ [] → lastTerm q ≠ t → (d, c) ∈ C → (completeTerms q ++ [t]) <+: c →
      PrefixMatch (completeTerms q) (lastTerm q) c ∧
      ∀ s' res, x.prefixTopk std q k s = .ok s' → s'.pool.results = .ok res → d ∉ res.map (·.1) := by
  obtain ⟨x, h1, h2⟩ := C01_exact std hC hw mem
  refine ⟨x, h1, ?_⟩
  intro q k s t c d hq hk hk' hs ht hp hne hnt hc hpre
  refine ⟨⟨t, hp, hpre⟩, ?_⟩
  intro s' res ho hr hd
  obtain ⟨E, b, h⟩ := h2 q k s hq hk hk' hs
  rw [ho] at h
  rcases h with ⟨e1, _⟩ | ⟨s2, e1, _, e2, _⟩
  · simp at e1
  · cases e1
    rw [hr] at e2
    cases e2
    rw [List.map_map] at hd
    obtain ⟨r, hr', hrd⟩ := List.mem_map.mp hd
    obtain ⟨hrC, y, hy1, hy2⟩ := b.sound r hr'
    have hrc : r.2 = c := hC.ready.unique (d := d) (by rw [← hrd]; exact hrC) hc
    rw [hrc] at hy2
    have : y = t := by
      have h3 := List.prefix_of_prefix_length_le hy2 hpre (by simp)
      have h4 := h3.eq_of_length (by simp)
      simpa using h4
    subst this
    rcases hy1.2 ht with h | h
    · exact hne h
    · exact hnt h

/-- in the sample, the query `"a"` misses the completions "ab b" and "ab c" -/
example : IsFirstTerm sampleColl [97, 98] ∧ lastTerm [97] <+: [97, 98] ∧ lastTerm [97] ≠ [] ∧ lastTerm [97] ≠ [97, 98] ∧
    (4, [[97, 98], [98]]) ∈ sampleColl ∧ (completeTerms [97] ++ [[97, 98]]) <+: [[97, 98], [98]] := by
  refine ⟨?_, by decide, by decide, by decide, by decide, by decide⟩
  have : (Pre.run sampleColl).terms[0]'(by decide +kernel) = [97, 98] := by decide +kernel
  rw [← this]
  exact (sampleColl_valid.ready.isFirst _).mpr rfl

/-! ## Types 2, 3 and 4 -/

theorem Base.exists {C : Coll} (hC : ValidColl C) (hw : Suits3 C) (mem : Nat → W) :
    ∃ x, Base.build (Pre.run C) mem = .ok x ∧ x.Rep (Pre.run C).mapped ∧ FC.Rep Elem.byte MAX_CHARS x.dict (Pre.run C).terms ∧
      FcDict.build (Pre.run C).terms = .ok x.dict := by
  have h := hC.ready
  obtain ⟨n, hn, h17⟩ := hw.terms
  rw [h.numTerms_eq hn] at h17
  exact Base.build_spec h h17 (by rw [h.length_mapped]; exact hw.count) hw.doc0 mem

/-- What prefix search with types 2, 3 and 4 returns (their members that this search uses are `Base`): as with type 1, but the first
completion is returned only when it has as many terms as the query and its last term is the smallest one found for the last one of the query. -/
theorem C02_exact (std : StdLib) {C : Coll} (hC : ValidColl C) (hw : Suits3 C) (mem : Nat → W) :
    ∃ x, Base.build (Pre.run C) mem = .ok x ∧ ∀ q k s, IsText q → 1 ≤ k → k ≤ MAX_K → Scratch.WF s →
      Outcome C (Pre.run C).terms (PrefixFound2 C (completeTerms q) (lastTerm q)) k (x.prefixTopk std q k s) := by
  obtain ⟨x, h1, h2, h3, h4⟩ := Base.exists hC hw mem
  exact ⟨x, h1, fun q k s hq hk hk' hs => Base.prefix_spec std hC.ready h2 h3 h4 hq hk hk' hs⟩

/-- **C02**: prefix search with types 2, 3 and 4 returns the `k` best matching completions. Missing from the claim: what is missing from C01,
numbers of completions that are multiples of 17, and queries that the first completion matches (`C02_false`). -/
theorem C02_prefix2_partial (std : StdLib) {C : Coll} (hC : ValidColl C) (hw : Suits3 C) (mem : Nat → W) :
    ∃ x, Base.build (Pre.run C) mem = .ok x ∧ ∀ q k s, IsText q → 1 ≤ k → k ≤ MAX_K → Scratch.WF s → LastOk C (lastTerm q) →
      (∀ c, IsFirstCompletion C c → ¬ PrefixMatch (completeTerms q) (lastTerm q) c) →
      (∀ r ∈ C, k * (joined r.2).length + 2 * MAX_CHARS ≤ POOL_SIZE) →
      ∃ s' res, x.prefixTopk std q k s = .ok s' ∧ s'.WF ∧ s'.pool.results = .ok res ∧
        Answer C (PrefixMatch (completeTerms q) (lastTerm q)) k res := by
  obtain ⟨x, h1, h2⟩ := C02_exact std hC hw mem
  refine ⟨x, h1, ?_⟩
  intro q k s hq hk hk' hs hl hf hroom
  refine ((h2 q k s hq hk hk' hs).congr (fun r _ => ?_)).answer (room_of hk hroom)
  unfold PrefixFound2
  rw [PrefixFound_iff hl]
  exact ⟨fun h => h.1, fun h => ⟨h, fun hc => absurd h (hf r.2 hc)⟩⟩

/-- whatever the query, every result is a matching completion with its text -/
theorem C02_sound (std : StdLib) {C : Coll} (hC : ValidColl C) (hw : Suits3 C) (mem : Nat → W) :
    ∃ x, Base.build (Pre.run C) mem = .ok x ∧ ∀ q k s s' res, IsText q → 1 ≤ k → k ≤ MAX_K → Scratch.WF s →
      x.prefixTopk std q k s = .ok s' → s'.pool.results = .ok res → res.length ≤ k ∧ res.Pairwise (fun a b => a.1 < b.1) ∧
        ∀ e ∈ res, ∃ c, (e.1, c) ∈ C ∧ e.2 = joined c ∧ PrefixMatch (completeTerms q) (lastTerm q) c := by
  obtain ⟨x, h1, h2⟩ := C02_exact std hC hw mem
  refine ⟨x, h1, ?_⟩
  intro q k s s' res hq hk hk' hs ho hr
  obtain ⟨E, b, h⟩ := h2 q k s hq hk hk' hs
  rw [ho] at h
  rcases h with ⟨e1, _⟩ | ⟨s2, e1, _, e2, _⟩
  · simp at e1
  · cases e1
    rw [hr] at e2
    cases e2
    refine ⟨by simpa using b.le, by rw [List.pairwise_map]; exact b.sorted, ?_⟩
    intro e he
    obtain ⟨r, hr', rfl⟩ := List.mem_map.mp he
    obtain ⟨y, hy1, hy2⟩ := (b.sound r hr').2.1
    exact ⟨r.2, (b.sound r hr').1, rfl, y, hy1.1, hy2⟩

/-- the hypotheses of C02 hold of the sample and of the query `"b a"` with 5 results -/
example : Suits3 sampleColl ∧ ∀ c, IsFirstCompletion sampleColl c → ¬ PrefixMatch (completeTerms [98, 32, 97]) (lastTerm [98, 32, 97]) c := by
  refine ⟨sampleColl_suits.to3, ?_⟩
  rintro c ⟨d, hd⟩ ⟨x, _, h⟩
  simp only [sampleColl, List.head?_cons, Option.some.injEq, Prod.mk.injEq] at hd
  rw [← hd.2] at h
  have := List.prefix_of_prefix_length_le (l₁ := completeTerms [98, 32, 97]) ((List.prefix_append _ [x]).trans h) (List.prefix_refl _)
    (by decide)
  exact absurd this (by decide)

/-- C02 is false: whatever the collection, the first completion is not returned for a query that has fewer terms than it -/
theorem C02_false (std : StdLib) {C : Coll} (hC : ValidColl C) (hw : Suits3 C) (mem : Nat → W) :
    ∃ x, Base.build (Pre.run C) mem = .ok x ∧ ∀ q k s c d, IsText q → 1 ≤ k → k ≤ MAX_K → Scratch.WF s → C.head? = some (d, c) →
      (completeTerms q).length + 1 < c.length →
      ∀ s' res, x.prefixTopk std q k s = .ok s' → s'.pool.results = .ok res → d ∉ res.map (·.1) := by
  obtain ⟨x, h1, h2⟩ := C02_exact std hC hw mem
  refine ⟨x, h1, ?_⟩
  intro q k s c d hq hk hk' hs hc hlen s' res ho hr hd
  obtain ⟨E, b, h⟩ := h2 q k s hq hk hk' hs
  rw [ho] at h
  rcases h with ⟨e1, _⟩ | ⟨s2, e1, _, e2, _⟩
  · simp at e1
  · cases e1
    rw [hr] at e2
    cases e2
    rw [List.map_map] at hd
    obtain ⟨r, hr', hrd⟩ := List.mem_map.mp hd
    obtain ⟨hrC, hp⟩ := b.sound r hr'
    have hcC : (d, c) ∈ C := List.mem_of_mem_head? hc
    have hrc : r.2 = c := hC.ready.unique (d := d) (by rw [← hrd]; exact hrC) hcC
    rw [hrc] at hp
    obtain ⟨y, _, hy⟩ := hp.2 ⟨d, hc⟩
    rw [hy] at hlen
    simp at hlen

/-- in the sample, the query `"ab"` misses the completion "ab b", which it matches -/
example : sampleColl.head? = some (4, [[97, 98], [98]]) ∧ (completeTerms [97, 98]).length + 1 < [[97, 98], [98]].length ∧
    PrefixMatch (completeTerms [97, 98]) (lastTerm [97, 98]) [[97, 98], [98]] :=
  ⟨by decide, by decide, [97, 98], by decide, by decide⟩

end AC.Props
