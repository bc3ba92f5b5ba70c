import Verif.Props.Prefix
/-!
# C03, C04 and C05: conjunctive search with types 1, 2 and 3
-/
namespace AC.Props
open AC Spec

/-- what the results of a query are sound for -/
theorem _root_.AC.Outcome.sound {C : Coll} {terms : List Str} {P : List Str → Prop} {k : Nat} {o : M Scratch} (h : Outcome C terms P k o) {s' : Scratch}
    {res : List (Nat × Str)} (ho : o = .ok s') (hr : s'.pool.results = .ok res) :
    res.length ≤ k ∧ res.Pairwise (fun a b => a.1 < b.1) ∧ ∀ e ∈ res, ∃ c, (e.1, c) ∈ C ∧ e.2 = joined c ∧ P c := by
  obtain ⟨E, b, h⟩ := h
  rw [ho] at h
  rcases h with ⟨e1, _⟩ | ⟨s2, e1, _, e2, _⟩
  · simp at e1
  · cases e1
    rw [hr] at e2
    cases e2
    refine ⟨by simpa using b.le, by rw [List.pairwise_map]; exact b.sorted, ?_⟩
    intro e he
    obtain ⟨r, hr', rfl⟩ := List.mem_map.mp he
    exact ⟨r.2, (b.sound r hr').1, rfl, (b.sound r hr').2⟩

/-! ## Type 1 -/

/-- What conjunctive search with type 1 returns, for every collection, every query, every `k` up to 15 and every state left by earlier
queries: the best completions that contain the known complete terms and a term that the dictionary finds for the last one, in increasing
order of document ids, each once, with their texts. Nothing is accessed outside of the buffers, unless the texts do not fit in the
pool. -/
theorem C03_exact (std : StdLib) {C : Coll} (hC : ValidColl C) (hw : Suits1 C) (mem : Nat → W) :
    ∃ x, Index1.build (Pre.run C) mem = .ok x ∧ ∀ q k s, IsText q → 1 ≤ k → k ≤ MAX_K → Scratch.WF s →
      Outcome C (Pre.run C).terms (ConjFound C (completeTerms q) (lastTerm q)) k (x.conjTopk std q k s) := by
  obtain ⟨x, h1, h2⟩ := Index1.exists hC.ready hw mem
  exact ⟨x, h1, fun q k s hq hk hk' hs => Index1.conj_spec std hC.ready h2 hq hk hk' hs⟩

/-- **C03**: conjunctive search with type 1 returns the `k` best matching completions, each once, in increasing order of document ids.
Missing from the claim: numbers of terms that are multiples of 17, collections where document 0 contains all the terms, queries that end with a strict
beginning of the first term (`C03_false`), and texts that do not fit in the pool. -/
theorem C03_conj1_partial (std : StdLib) {C : Coll} (hC : ValidColl C) (hw : Suits1 C) (mem : Nat → W) :
    ∃ x, Index1.build (Pre.run C) mem = .ok x ∧ ∀ q k s, IsText q → 1 ≤ k → k ≤ MAX_K → Scratch.WF s → LastOk C (lastTerm q) →
      (∀ r ∈ C, k * (joined r.2).length + 2 * MAX_CHARS ≤ POOL_SIZE) →
      ∃ s' res, x.conjTopk std q k s = .ok s' ∧ s'.WF ∧ s'.pool.results = .ok res ∧
        Answer C (ConjMatch C (completeTerms q) (lastTerm q)) k res := by
  obtain ⟨x, h1, h2⟩ := C03_exact std hC hw mem
  refine ⟨x, h1, ?_⟩
  intro q k s hq hk hk' hs hl hroom
  exact ((h2 q k s hq hk hk' hs).congr (fun r _ => ConjFound_iff hl r.2)).answer (room_of hk hroom)

/-- whatever the query, every result is a matching completion with its text -/
theorem C03_sound (std : StdLib) {C : Coll} (hC : ValidColl C) (hw : Suits1 C) (mem : Nat → W) :
    ∃ x, Index1.build (Pre.run C) mem = .ok x ∧ ∀ q k s s' res, IsText q → 1 ≤ k → k ≤ MAX_K → Scratch.WF s →
      x.conjTopk std q k s = .ok s' → s'.pool.results = .ok res → res.length ≤ k ∧ res.Pairwise (fun a b => a.1 < b.1) ∧
        ∀ e ∈ res, ∃ c, (e.1, c) ∈ C ∧ e.2 = joined c ∧ ConjMatch C (completeTerms q) (lastTerm q) c := by
  obtain ⟨x, h1, h2⟩ := C03_exact std hC hw mem
  refine ⟨x, h1, ?_⟩
  intro q k s s' res hq hk hk' hs ho hr
  obtain ⟨a1, a2, a3⟩ := (h2 q k s hq hk hk' hs).sound ho hr
  refine ⟨a1, a2, ?_⟩
  intro e he
  obtain ⟨c, c1, c2, c3, y, hy, hre⟩ := a3 e he
  exact ⟨c, c1, c2, c3, y, hy, hre.1⟩

/-- C03 is false: whatever the collection, the completions that match only through the first term of the dictionary are not returned for a query
that ends with a strict beginning of that term -/
theorem C03_false (std : StdLib) {C : Coll} (hC : ValidColl C) (hw : Suits1 C) (mem : Nat → W) :
    ∃ x, Index1.build (Pre.run C) mem = .ok x ∧ ∀ q k s t c d, IsText q → 1 ≤ k → k ≤ MAX_K → Scratch.WF s → IsFirstTerm C t →
      lastTerm q <+: t → lastTerm q ≠ [] → lastTerm q ≠ t → (d, c) ∈ C → t ∈ c → (∀ u ∈ c, lastTerm q <+: u → u = t) →
      (∀ u ∈ completeTerms q, u ∈ c) → ConjMatch C (completeTerms q) (lastTerm q) c ∧
      ∀ s' res, x.conjTopk std q k s = .ok s' → s'.pool.results = .ok res → d ∉ res.map (·.1) := by
  obtain ⟨x, h1, h2⟩ := C03_exact std hC hw mem
  refine ⟨x, h1, ?_⟩
  intro q k s t c d hq hk hk' hs ht hp hne hnt hc htc honly hcompl
  refine ⟨⟨fun u hu _ => hcompl u hu, t, htc, hp⟩, ?_⟩
  intro s' res ho hr hd
  obtain ⟨e, he, rfl⟩ := List.mem_map.mp hd
  obtain ⟨c', c1, _, _, y, hy, hre⟩ := ((h2 q k s hq hk hk' hs).sound ho hr).2.2 e he
  rw [hC.ready.unique c1 hc] at hy
  have hyt := honly y hy hre.1
  subst hyt
  rcases hre.2 ht with h | h
  · exact hne h
  · exact hnt h

/-! ## Type 2 -/

/-- What conjunctive search with type 2 returns, for every collection, every query, every `k` up to 15 and every state left by earlier
queries: the best completions that contain the known complete terms and a term that the dictionary finds for the last one, in increasing
order of document ids, each once, with their texts. Nothing is accessed outside of the buffers, unless the texts do not fit in the
pool. -/
theorem C04_exact (std : StdLib) {C : Coll} (hC : ValidColl C) (hw : Suits2 C) (mem : Nat → W) :
    ∃ x, Index2.build (Pre.run C) mem = .ok x ∧ ∀ q k s, IsText q → 1 ≤ k → k ≤ MAX_K → Scratch.WF s →
      Outcome C (Pre.run C).terms (ConjFound C (completeTerms q) (lastTerm q)) k (x.conjTopk std q k s) := by
  obtain ⟨x, h1, h2⟩ := Index2.exists hC.ready hw mem
  exact ⟨x, h1, fun q k s hq hk hk' hs => Index2.conj_spec std hC.ready h2 hq hk hk' hs⟩

/-- **C04**: conjunctive search with type 2 returns the `k` best matching completions, each once, in increasing order of document ids.
Missing from the claim: numbers of terms or of completions that are multiples of 17, collections where document 0
contains all the terms, queries that end with a strict
beginning of the first term (`C04_false`), and texts that do not fit in the pool. -/
theorem C04_conj2_partial (std : StdLib) {C : Coll} (hC : ValidColl C) (hw : Suits2 C) (mem : Nat → W) :
    ∃ x, Index2.build (Pre.run C) mem = .ok x ∧ ∀ q k s, IsText q → 1 ≤ k → k ≤ MAX_K → Scratch.WF s → LastOk C (lastTerm q) →
      (∀ r ∈ C, k * (joined r.2).length + 2 * MAX_CHARS ≤ POOL_SIZE) →
      ∃ s' res, x.conjTopk std q k s = .ok s' ∧ s'.WF ∧ s'.pool.results = .ok res ∧
        Answer C (ConjMatch C (completeTerms q) (lastTerm q)) k res := by
  obtain ⟨x, h1, h2⟩ := C04_exact std hC hw mem
  refine ⟨x, h1, ?_⟩
  intro q k s hq hk hk' hs hl hroom
  exact ((h2 q k s hq hk hk' hs).congr (fun r _ => ConjFound_iff hl r.2)).answer (room_of hk hroom)

/-- whatever the query, every result is a matching completion with its text -/
theorem C04_sound (std : StdLib) {C : Coll} (hC : ValidColl C) (hw : Suits2 C) (mem : Nat → W) :
    ∃ x, Index2.build (Pre.run C) mem = .ok x ∧ ∀ q k s s' res, IsText q → 1 ≤ k → k ≤ MAX_K → Scratch.WF s →
      x.conjTopk std q k s = .ok s' → s'.pool.results = .ok res → res.length ≤ k ∧ res.Pairwise (fun a b => a.1 < b.1) ∧
        ∀ e ∈ res, ∃ c, (e.1, c) ∈ C ∧ e.2 = joined c ∧ ConjMatch C (completeTerms q) (lastTerm q) c := by
  obtain ⟨x, h1, h2⟩ := C04_exact std hC hw mem
  refine ⟨x, h1, ?_⟩
  intro q k s s' res hq hk hk' hs ho hr
  obtain ⟨a1, a2, a3⟩ := (h2 q k s hq hk hk' hs).sound ho hr
  refine ⟨a1, a2, ?_⟩
  intro e he
  obtain ⟨c, c1, c2, c3, y, hy, hre⟩ := a3 e he
  exact ⟨c, c1, c2, c3, y, hy, hre.1⟩

/-- C04 is false: whatever the collection, the completions that match only through the first term of the dictionary are not returned for a query
that ends with a strict beginning of that term -/
theorem C04_false (std : StdLib) {C : Coll} (hC : ValidColl C) (hw : Suits2 C) (mem : Nat → W) :
    ∃ x, Index2.build (Pre.run C) mem = .ok x ∧ ∀ q k s t c d, IsText q → 1 ≤ k → k ≤ MAX_K → Scratch.WF s → IsFirstTerm C t →
      lastTerm q <+: t → lastTerm q ≠ [] → lastTerm q ≠ t → (d, c) ∈ C → t ∈ c → (∀ u ∈ c, lastTerm q <+: u → u = t) →
      (∀ u ∈ completeTerms q, u ∈ c) → ConjMatch C (completeTerms q) (lastTerm q) c ∧
      ∀ s' res, x.conjTopk std q k s = .ok s' → s'.pool.results = .ok res → d ∉ res.map (·.1) := by
  obtain ⟨x, h1, h2⟩ := C04_exact std hC hw mem
  refine ⟨x, h1, ?_⟩
  intro q k s t c d hq hk hk' hs ht hp hne hnt hc htc honly hcompl
  refine ⟨⟨fun u hu _ => hcompl u hu, t, htc, hp⟩, ?_⟩
  intro s' res ho hr hd
  obtain ⟨e, he, rfl⟩ := List.mem_map.mp hd
  obtain ⟨c', c1, _, _, y, hy, hre⟩ := ((h2 q k s hq hk hk' hs).sound ho hr).2.2 e he
  rw [hC.ready.unique c1 hc] at hy
  have hyt := honly y hy hre.1
  subst hyt
  rcases hre.2 ht with h | h
  · exact hne h
  · exact hnt h

/-! ## Type 3 -/

/-- What conjunctive search with type 3 returns, for every collection, every query, every `k` up to 15 and every state left by earlier
queries: the best completions that contain the known complete terms and a term that the dictionary finds for the last one, in increasing
order of document ids, each once, with their texts. Nothing is accessed outside of the buffers, unless the texts do not fit in the
pool. -/
theorem C05_exact (std : StdLib) {C : Coll} (hC : ValidColl C) (hw : Suits3 C) (mem : Nat → W) :
    ∃ x, Index3.build (Pre.run C) mem = .ok x ∧ ∀ q k s, IsText q → 1 ≤ k → k ≤ MAX_K → Scratch.WF s →
      Outcome C (Pre.run C).terms (ConjFound C (completeTerms q) (lastTerm q)) k (x.conjTopk std q k s) := by
  obtain ⟨x, h1, h2⟩ := Index3.exists hC.ready hw mem
  exact ⟨x, h1, fun q k s hq hk hk' hs => Index3.conj_spec std hC.ready h2 hq hk hk' hs⟩

/-- **C05**: conjunctive search with type 3 returns the `k` best matching completions, each once, in increasing order of document ids.
Missing from the claim: numbers of terms or of completions that are multiples of 17, a collection with document id 0 only, queries that end with a strict
beginning of the first term (`C05_false`), and texts that do not fit in the pool. -/
theorem C05_conj3_partial (std : StdLib) {C : Coll} (hC : ValidColl C) (hw : Suits3 C) (mem : Nat → W) :
    ∃ x, Index3.build (Pre.run C) mem = .ok x ∧ ∀ q k s, IsText q → 1 ≤ k → k ≤ MAX_K → Scratch.WF s → LastOk C (lastTerm q) →
      (∀ r ∈ C, k * (joined r.2).length + 2 * MAX_CHARS ≤ POOL_SIZE) →
      ∃ s' res, x.conjTopk std q k s = .ok s' ∧ s'.WF ∧ s'.pool.results = .ok res ∧
        Answer C (ConjMatch C (completeTerms q) (lastTerm q)) k res := by
  obtain ⟨x, h1, h2⟩ := C05_exact std hC hw mem
  refine ⟨x, h1, ?_⟩
  intro q k s hq hk hk' hs hl hroom
  exact ((h2 q k s hq hk hk' hs).congr (fun r _ => ConjFound_iff hl r.2)).answer (room_of hk hroom)

/-- whatever the query, every result is a matching completion with its text -/
theorem C05_sound (std : StdLib) {C : Coll} (hC : ValidColl C) (hw : Suits3 C) (mem : Nat → W) :
    ∃ x, Index3.build (Pre.run C) mem = .ok x ∧ ∀ q k s s' res, IsText q → 1 ≤ k → k ≤ MAX_K → Scratch.WF s →
      x.conjTopk std q k s = .ok s' → s'.pool.results = .ok res → res.length ≤ k ∧ res.Pairwise (fun a b => a.1 < b.1) ∧
        ∀ e ∈ res, ∃ c, (e.1, c) ∈ C ∧ e.2 = joined c ∧ ConjMatch C (completeTerms q) (lastTerm q) c := by
  obtain ⟨x, h1, h2⟩ := C05_exact std hC hw mem
  refine ⟨x, h1, ?_⟩
  intro q k s s' res hq hk hk' hs ho hr
  obtain ⟨a1, a2, a3⟩ := (h2 q k s hq hk hk' hs).sound ho hr
  refine ⟨a1, a2, ?_⟩
  intro e he
  obtain ⟨c, c1, c2, c3, y, hy, hre⟩ := a3 e he
  exact ⟨c, c1, c2, c3, y, hy, hre.1⟩

/-- C05 is false: whatever the collection, the completions that match only through the first term of the dictionary are not returned for a query
that ends with a strict beginning of that term -/
theorem C05_false (std : StdLib) {C : Coll} (hC : ValidColl C) (hw : Suits3 C) (mem : Nat → W) :
    ∃ x, Index3.build (Pre.run C) mem = .ok x ∧ ∀ q k s t c d, IsText q → 1 ≤ k → k ≤ MAX_K → Scratch.WF s → IsFirstTerm C t →
      lastTerm q <+: t → lastTerm q ≠ [] → lastTerm q ≠ t → (d, c) ∈ C → t ∈ c → (∀ u ∈ c, lastTerm q <+: u → u = t) →
      (∀ u ∈ completeTerms q, u ∈ c) → ConjMatch C (completeTerms q) (lastTerm q) c ∧
      ∀ s' res, x.conjTopk std q k s = .ok s' → s'.pool.results = .ok res → d ∉ res.map (·.1) := by
  obtain ⟨x, h1, h2⟩ := C05_exact std hC hw mem
  refine ⟨x, h1, ?_⟩
  intro q k s t c d hq hk hk' hs ht hp hne hnt hc htc honly hcompl
  refine ⟨⟨fun u hu _ => hcompl u hu, t, htc, hp⟩, ?_⟩
  intro s' res ho hr hd
  obtain ⟨e, he, rfl⟩ := List.mem_map.mp hd
  obtain ⟨c', c1, _, _, y, hy, hre⟩ := ((h2 q k s hq hk hk' hs).sound ho hr).2.2 e he
  rw [hC.ready.unique c1 hc] at hy
  have hyt := honly y hy hre.1
  subst hyt
  rcases hre.2 ht with h | h
  · exact hne h
  · exact hnt h

/-- the hypotheses hold of the sample, which suits all the types, and of the query `"b zz a"` with 5 results, although `"zz"` is not a term:
the completions "b ab" and "ab b" match -/
example : Suits1 sampleColl ∧ Suits2 sampleColl ∧ Suits3 sampleColl ∧ IsText [98, 32, 122, 122, 32, 97, 98] ∧
    completeTerms [98, 32, 122, 122, 32, 97, 98] = [[98], [122, 122]] ∧
    LastOk sampleColl (lastTerm [98, 32, 122, 122, 32, 97, 98]) ∧
    (∀ r ∈ sampleColl, 5 * (joined r.2).length + 2 * MAX_CHARS ≤ POOL_SIZE) ∧
    ConjMatch sampleColl (completeTerms [98, 32, 122, 122, 32, 97, 98]) (lastTerm [98, 32, 122, 122, 32, 97, 98]) [[97, 98], [98]] := by
  refine ⟨sampleColl_suits.toSuits1, sampleColl_suits, sampleColl_suits.to3, by decide, by decide, lastOk_of sampleColl_valid (by decide +kernel),
    by decide, ?_, [97, 98], by decide, by decide⟩
  intro t ht hk
  rw [show completeTerms [98, 32, 122, 122, 32, 97, 98] = [[98], [122, 122]] by decide] at ht
  simp only [List.mem_cons, List.not_mem_nil, or_false] at ht
  rcases ht with rfl | rfl
  · decide
  · exact absurd hk (by decide)

/-- in the sample, the query `"b a"` misses the completion "b ab" -/
example : lastTerm [98, 32, 97] <+: [97, 98] ∧ lastTerm [98, 32, 97] ≠ [] ∧ lastTerm [98, 32, 97] ≠ [97, 98] ∧
    (7, [[98], [97, 98]]) ∈ sampleColl ∧ (∀ u ∈ [[98], [97, 98]], lastTerm [98, 32, 97] <+: u → u = [97, 98]) ∧
    (∀ u ∈ completeTerms [98, 32, 97], u ∈ [[98], [97, 98]]) := by decide

end AC.Props
