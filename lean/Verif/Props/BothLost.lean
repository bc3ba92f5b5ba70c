import Verif.Proofs.BothLost
import Verif.Props.LostCompletions
/-!
# C69: collections whose numbers of terms and of completions are both multiples of 17, with types 2, 3 and 4
-/
namespace AC.Props
open AC Spec

theorem Suits17e.mod {C : Coll} (hC : ValidColl C) (h : Suits17e C) : (Pre.run C).terms.length % 17 = 0 := by
  obtain ⟨n, hn, h17⟩ := h.terms
  rwa [hC.ready.numTerms_eq hn] at h17

/-! ## What the searches return -/

/-- The searches with type 3: those of `C66_type3_exact` without the last 16 completions; conjunctive search reads out of bounds also when one of the
results is one of these. -/
theorem C69_type3_exact (std : StdLib) {C : Coll} (hC : ValidColl C) (hw : Suits17e C) (mem : Nat → W) :
    ∃ x, Index3.build (Pre.run C) mem = .ok x ∧ ∀ q k s, IsText q → 1 ≤ k → k ≤ MAX_K → Scratch.WF s →
      Outcome17 C (Pre.run C).terms (PrefixKeptB C (completeTerms q) (lastTerm q)) k (x.toBase.prefixTopk std q k s) ∧
      OutcomeB C (Pre.run C).terms (ConjKept C (completeTerms q) (lastTerm q)) k (x.conjTopk std q k s) := by
  obtain ⟨x, h1, h2⟩ := Index3.build_both hC.ready (Suits17e.mod hC hw) hw.count (hC.ready.keptDoc hw.count hw.doc) mem
  exact ⟨x, h1, fun q k s hq hk hk' hs => ⟨Base.prefix_specB hC.ready std h2.base h2.dict h2.built hq hk hk' hs,
    Index3.conj_specB hC.ready std h2 hq hk hk' hs⟩⟩

/-- The searches with type 2: conjunctive search reads out of bounds when one of the completions that it loads is one of the last 16, or one of the
results has one of the last 16 terms. -/
theorem C69_type2_exact (std : StdLib) {C : Coll} (hC : ValidColl C) (hw : Suits17f C) (mem : Nat → W) :
    ∃ x, Index2.build (Pre.run C) mem = .ok x ∧ ∀ q k s, IsText q → 1 ≤ k → k ≤ MAX_K → Scratch.WF s →
      Outcome17 C (Pre.run C).terms (PrefixKeptB C (completeTerms q) (lastTerm q)) k (x.toBase.prefixTopk std q k s) ∧
      Outcome2B C (Pre.run C).terms (completeTerms q) (lastTerm q) k (x.conjTopk std q k s) := by
  obtain ⟨x, h1, h2⟩ := Index2.build_both hC.ready (Suits17e.mod hC hw.toSuits17e) hw.count (hC.ready.keptDoc hw.count hw.doc)
    (hC.ready.minList hw.doc0) mem
  exact ⟨x, h1, fun q k s hq hk hk' hs => ⟨Base.prefix_specB hC.ready std h2.base h2.dict h2.built hq hk hk' hs,
    Index2.conj_specB hC.ready std h2 hq hk hk' hs⟩⟩

/-- The searches with type 4: what prefix search returns, and what conjunctive search may return. -/
theorem C69_type4 (std : StdLib) {C : Coll} (hC : ValidColl C) (hw : Suits17e C) (hids : ∀ r ∈ C, r.1 < 2 ^ 32 - 2) (m : Nat) (mem : Nat → W) :
    ∃ x, Index4.build std m (Pre.run C) mem = .ok x ∧ ∀ q k s, IsText q → 1 ≤ k → k ≤ MAX_K → Scratch.WF s →
      Outcome17 C (Pre.run C).terms (PrefixKeptB C (completeTerms q) (lastTerm q)) k (x.toBase.prefixTopk std q k s) ∧
      SoundB C (Pre.run C).terms (ConjKept C (completeTerms q) (lastTerm q)) k (x.conjTopk std q k s) := by
  obtain ⟨x, docss, h1, h2⟩ := Index4.build_both hC.ready (Suits17e.mod hC hw) hw.count (hC.ready.keptDoc hw.count hw.doc) std m mem
  exact ⟨x, h1, fun q k s hq hk hk' hs => ⟨Base.prefix_specB hC.ready std h2.base h2.dict h2.built hq hk hk' hs,
    Index4.conj_soundB hC.ready std h2 hids hq hk hk' hs⟩⟩

/-! ## What a client observes -/

/-- the document of a completion that is lost, or that has a lost term -/
def GoneDoc (C : Coll) (d : Nat) : Prop := ∃ c, (d, c) ∈ C ∧ Gone C c

/-- at least sixteen completions are lost -/
theorem Suits17e.gone {C : Coll} (hC : ValidColl C) (hw : Suits17e C) : ∃ L : List Nat, L.Nodup ∧ L.length = 16 ∧ ∀ d ∈ L, GoneDoc C d := by
  have h17 := hw.count
  have hpos : 0 < C.length := List.length_pos_iff.mpr hC.ne
  refine ⟨(C.drop (C.length - 16)).map (·.1), (hC.docs).sublist ((List.drop_sublist _ _).map _), by simp; omega, ?_⟩
  intro d hd
  obtain ⟨r, hr, rfl⟩ := List.mem_map.mp hd
  obtain ⟨i, hi, rfl⟩ := List.getElem_of_mem hr
  rw [List.length_drop] at hi
  rw [List.getElem_drop]
  exact ⟨_, List.getElem_mem _, Or.inl ((hC.ready.lastCompletion (by omega) (by omega)).mpr (by omega))⟩

theorem _root_.AC.Shows.notGone {C : Coll} (hC : ValidColl C) {terms : List Str} {E : Coll} {o : M Scratch} (h : Shows terms E o)
    (hE : ∀ r ∈ E, r ∈ C ∧ ¬ Gone C r.2) {s' : Scratch} {res : List (Nat × Str)} (ho : o = .ok s') (hr : s'.pool.results = .ok res) :
    ∀ e ∈ res, ¬ GoneDoc C e.1 := by
  rw [h.results ho hr]
  intro e he
  obtain ⟨r, hr, rfl⟩ := List.mem_map.mp he
  rintro ⟨c, hc, hg⟩
  rw [hC.ready.unique (d := r.1) hc (hE r hr).1] at hg
  exact (hE r hr).2 hg

theorem _root_.AC.Outcome17.noneGone {C : Coll} (hC : ValidColl C) {terms : List Str} {search : Str → Nat → Scratch → M Scratch}
    (h : ∀ q k s, IsText q → 1 ≤ k → k ≤ MAX_K → Scratch.WF s → Outcome17 C terms (PrefixKeptB C (completeTerms q) (lastTerm q)) k (search q k s)) :
    ShowsNone search (GoneDoc C) := by
  intro q k s s' res hq hk hk' hs ho hr
  obtain ⟨E, b, h1, h2⟩ := h q k s hq hk hk' hs
  have hno : ∀ r ∈ E, ∀ t ∈ r.2, ¬ AmongLast C 16 t := by
    intro r hr t ht hl
    have := h2 ⟨r, hr, t, ht, hl⟩
    rw [ho] at this
    simp at this
  refine (h1 hno).notGone hC (fun r hr => ⟨(b.sound r hr).1, ?_⟩) ho hr
  rintro (hg | ⟨t, ht, hl⟩)
  · exact (b.sound r hr).2.2 hg
  · exact hno r hr t ht hl

theorem _root_.AC.SoundB.noneGone {C : Coll} (hC : ValidColl C) {terms : List Str} {P : Str → List Str → Prop} {search : Str → Nat → Scratch → M Scratch}
    (h : ∀ q k s, IsText q → 1 ≤ k → k ≤ MAX_K → Scratch.WF s → SoundB C terms (P q) k (search q k s)) :
    ShowsNone search (GoneDoc C) := by
  intro q k s s' res hq hk hk' hs ho hr
  obtain ⟨E, _, b, h1, h2⟩ := h q k s hq hk hk' hs
  have hno : ∀ r ∈ E, ¬ Gone C r.2 := by
    intro r hr hl
    have := h2 ⟨r, hr, hl⟩
    rw [ho] at this
    simp at this
  exact (h1 hno).notGone hC (fun r hr => ⟨(b r hr).1, hno r hr⟩) ho hr

/-- **C69 is false** with type 3: whatever the collection, sixteen completions, and all those with one of the last 16 terms, are never shown -/
theorem C69_false3 (std : StdLib) {C : Coll} (hC : ValidColl C) (hw : Suits17e C) (mem : Nat → W) :
    (∃ L : List Nat, L.Nodup ∧ L.length = 16 ∧ ∀ d ∈ L, GoneDoc C d) ∧
    ∃ x, Index3.build (Pre.run C) mem = .ok x ∧ ShowsNone (x.toBase.prefixTopk std) (GoneDoc C) ∧ ShowsNone (x.conjTopk std) (GoneDoc C) := by
  obtain ⟨x, h1, h2⟩ := C69_type3_exact std hC hw mem
  exact ⟨Suits17e.gone hC hw, x, h1, Outcome17.noneGone hC (fun q k s a b c d => (h2 q k s a b c d).1),
    SoundB.noneGone hC (fun q k s a b c d => (h2 q k s a b c d).2.sound)⟩

/-- the same with type 4 -/
theorem C69_false4 (std : StdLib) {C : Coll} (hC : ValidColl C) (hw : Suits17e C) (hids : ∀ r ∈ C, r.1 < 2 ^ 32 - 2) (m : Nat) (mem : Nat → W) :
    (∃ L : List Nat, L.Nodup ∧ L.length = 16 ∧ ∀ d ∈ L, GoneDoc C d) ∧
    ∃ x, Index4.build std m (Pre.run C) mem = .ok x ∧ ShowsNone (x.toBase.prefixTopk std) (GoneDoc C) ∧ ShowsNone (x.conjTopk std) (GoneDoc C) := by
  obtain ⟨x, h1, h2⟩ := C69_type4 std hC hw hids m mem
  exact ⟨Suits17e.gone hC hw, x, h1, Outcome17.noneGone hC (fun q k s a b c d => (h2 q k s a b c d).1),
    SoundB.noneGone hC (fun q k s a b c d => (h2 q k s a b c d).2)⟩

/-- the same with type 2 -/
theorem C69_false2 (std : StdLib) {C : Coll} (hC : ValidColl C) (hw : Suits17f C) (mem : Nat → W) :
    (∃ L : List Nat, L.Nodup ∧ L.length = 16 ∧ ∀ d ∈ L, GoneDoc C d) ∧
    ∃ x, Index2.build (Pre.run C) mem = .ok x ∧ ShowsNone (x.toBase.prefixTopk std) (GoneDoc C) ∧ ShowsNone (x.conjTopk std) (GoneDoc C) := by
  obtain ⟨x, h1, h2⟩ := C69_type2_exact std hC hw mem
  refine ⟨Suits17e.gone hC hw.toSuits17e, x, h1, Outcome17.noneGone hC (fun q k s a b c d => (h2 q k s a b c d).1), ?_⟩
  intro q k s s' res hq hk hk' hs ho hr
  obtain ⟨h3, h4⟩ := (h2 q k s hq hk hk' hs).2
  have hno : ¬ ∃ d c, ExaminedKept C (completeTerms q) (lastTerm q) k d c ∧ LastCompletion C 16 c := by
    intro hex
    have := h3 hex
    rw [ho] at this
    simp at this
  obtain ⟨E, b, h5, h6⟩ := h4 hno
  have hnt : ∀ r ∈ E, ∀ t ∈ r.2, ¬ AmongLast C 16 t := by
    intro r hr t ht hl
    have := h6 ⟨r, hr, t, ht, hl⟩
    rw [ho] at this
    simp at this
  refine (h5 hnt).notGone hC (fun r hr => ⟨(b.sound r hr).1, ?_⟩) ho hr
  rintro (hg | ⟨t, ht, hl⟩)
  · obtain ⟨y1, y2, y3⟩ := (best_mem b r).mp hr
    exact hno ⟨r.1, r.2, ⟨y1, by obtain ⟨z, z1, z2⟩ := y2.2; exact ⟨z, ⟨r, y1, z1⟩, z2⟩, y2.1, Or.inr y2.2, y3⟩, hg⟩
  · exact hnt r hr t ht hl

/-- The server reads out of bounds with type 3, for the empty query: when fewer than `k` completions have ids smaller than that of a completion that is
lost, conjunctive search does so. -/
theorem C69_fault (std : StdLib) {C : Coll} (hC : ValidColl C) (hw : Suits17e C) (mem : Nat → W) :
    ∃ x, Index3.build (Pre.run C) mem = .ok x ∧ ∀ q k s d, IsText q → completeTerms q = [] → lastTerm q = [] → 1 ≤ k → k ≤ MAX_K → Scratch.WF s →
      GoneDoc C d → (∀ G : Coll, G.Nodup → (∀ r ∈ G, r ∈ C ∧ r.1 < d) → G.length < k) → x.conjTopk std q k s = .error .oob := by
  obtain ⟨x, h1, h2⟩ := C69_type3_exact std hC hw mem
  refine ⟨x, h1, ?_⟩
  intro q k s d hq hqc hql hk hk' hs ⟨c, hc, hg⟩ hG
  obtain ⟨E, b, _, h4⟩ := (h2 q k s hq hk hk' hs).2
  refine h4 ⟨(d, c), (best_mem b (d, c)).mpr ⟨hc, ?_, fun G hn hGP => hG G hn (fun r hr => ⟨(hGP r hr).1, (hGP r hr).2.2⟩)⟩, hg⟩
  rw [hqc, hql]
  obtain ⟨y, ys, he⟩ := List.exists_cons_of_ne_nil (hC.nonempty _ hc)
  exact ⟨by simp, y, by rw [he]; simp, ⟨List.nil_prefix, fun _ => Or.inl rfl⟩, Or.inl rfl⟩

/-! ## What remains -/

/-- **C69**, what is left of it: with type 3 (with types 2 and 4 prefix search is the same) the searches answer as with other numbers when no completion
that matches is lost, itself or one of its terms, and, for conjunctive search, no complete term of the query is lost. Missing: all other queries
(`C69_false2`, `C69_false3`, `C69_false4`, `C69_fault`). -/
theorem C69_partial (std : StdLib) {C : Coll} (hC : ValidColl C) (hw : Suits17e C) (mem : Nat → W) :
    ∃ x, Index3.build (Pre.run C) mem = .ok x ∧ ∀ q k s, IsText q → 1 ≤ k → k ≤ MAX_K → Scratch.WF s → LastOk C (lastTerm q) →
      (∀ r ∈ C, k * (joined r.2).length + 2 * MAX_CHARS ≤ POOL_SIZE) →
      ((∀ c, IsFirstCompletion C c → ¬ PrefixMatch (completeTerms q) (lastTerm q) c) →
        (∀ r ∈ C, PrefixMatch (completeTerms q) (lastTerm q) r.2 → ¬ Gone C r.2) →
        ∃ s' res, x.toBase.prefixTopk std q k s = .ok s' ∧ s'.WF ∧ s'.pool.results = .ok res ∧
          Answer C (PrefixMatch (completeTerms q) (lastTerm q)) k res) ∧
      ((∀ r ∈ C, ConjMatch C (completeTerms q) (lastTerm q) r.2 → ¬ Gone C r.2) → (∀ t ∈ completeTerms q, ¬ AmongLast C 16 t) →
        ∃ s' res, x.conjTopk std q k s = .ok s' ∧ s'.WF ∧ s'.pool.results = .ok res ∧
          Answer C (ConjMatch C (completeTerms q) (lastTerm q)) k res) := by
  obtain ⟨x, h1, h2⟩ := C69_type3_exact std hC hw mem
  refine ⟨x, h1, ?_⟩
  intro q k s hq hk hk' hs hl hroom
  obtain ⟨h3, h4⟩ := h2 q k s hq hk hk' hs
  constructor
  · intro hf hno
    refine h3.answer (fun r hr => ?_) (fun r hr hm => ?_) (room_of hk hroom)
    · constructor
      · rintro ⟨⟨⟨_, y, hy, hp⟩, _⟩, _⟩; exact ⟨y, hy.1.1, hp⟩
      · intro hm
        have hn := hno r hr hm
        refine ⟨⟨?_, fun hc => absurd hm (hf r.2 hc)⟩, fun hl => hn (Or.inl hl)⟩
        obtain ⟨y, hy, hp⟩ := hm
        have hsub : ∀ t ∈ completeTerms q ++ [y], t ∈ r.2 := fun t ht => hp.subset ht
        have hk : ∀ t ∈ completeTerms q ++ [y], ¬ AmongLast C 16 t := fun t ht hl => hn (Or.inr ⟨t, hsub t ht, hl⟩)
        exact ⟨fun t ht => ⟨⟨r, hr, hsub t (by simp [ht])⟩, hk t (by simp [ht])⟩, y, ⟨⟨hy, fun hf => hl y hf hy⟩, Or.inr (hk y (by simp))⟩, hp⟩
    · rintro ⟨c, hc, ht⟩
      rw [hC.ready.unique (d := r.1) hc hr] at ht
      exact hno r hr hm (Or.inr ht)
  · intro hno hc
    have hpq : ∀ r ∈ C, (ConjKept C (completeTerms q) (lastTerm q) r.2 ↔ ConjMatch C (completeTerms q) (lastTerm q) r.2) := by
      intro r hr
      constructor
      · rintro ⟨h0, y, hy, hp⟩; exact ⟨fun t ht hi => h0 t ht ⟨hi, hc t ht⟩, y, hy, hp.1.1⟩
      · intro hm
        have hn := hno r hr hm
        obtain ⟨h0, y, hy, hp⟩ := hm
        exact ⟨fun t ht hi => h0 t ht hi.1, y, hy, ⟨hp, fun hf => hl y hf hp⟩, Or.inr (fun hl => hn (Or.inr ⟨y, hy, hl⟩))⟩
    obtain ⟨E, b, h5, _⟩ := h4
    have o1 : Outcome C (Pre.run C).terms (ConjKept C (completeTerms q) (lastTerm q)) k (x.conjTopk std q k s) :=
      ⟨E, b, h5 (fun r hr => hno r (b.sound r hr).1 ((hpq r (b.sound r hr).1).mp (b.sound r hr).2))⟩
    exact (o1.congr hpq).answer (room_of hk hroom)

/-! ## A collection -/

/-- The term number `i`: "aa", "ab", …, "bh". -/
def term34 (i : Nat) : Str := [97 + i / 26, 97 + i % 26]

/-- 34 completions of two of 34 terms, the first with the last, the second with the one before the last, and so on, with document ids from 34 down to 1. The
last 16 completions are lost, those after number 17; the first 16 have lost terms; two are left, the numbers 16 and 17. -/
def collB34 : Coll := (List.range 34).map (fun i => (34 - i, [term34 i, term34 (33 - i)]))

theorem collB34_valid : ValidColl collB34 :=
  ⟨by decide, by decide +kernel, by decide +kernel, by decide +kernel, by decide +kernel, by decide +kernel, by decide +kernel, by decide +kernel,
    by decide +kernel, by decide +kernel⟩

theorem collB34_last {i : Nat} (hi : i < collB34.length) : LastCompletion collB34 16 collB34[i].2 ↔ 18 ≤ i := by
  have h : collB34.length = 34 := by decide +kernel
  have := collB34_valid.ready.lastCompletion (by omega) hi
  rw [h] at this
  exact this

theorem collB34_suits : Suits17f collB34 :=
  { terms := ⟨_, collB34_valid.ready.numTerms, by decide +kernel⟩
    count := by decide +kernel
    doc := by
      refine ⟨collB34[0]'(by decide +kernel), List.getElem_mem _, by decide +kernel, ?_⟩
      rw [collB34_last]
      omega
    doc0 := ⟨term34 0, ⟨(34, [term34 0, term34 33]), by decide +kernel, by decide⟩, by
      have : ∀ r ∈ collB34, r.1 ≠ 0 := by decide +kernel
      intro c hc
      exact absurd rfl (this _ hc)⟩ }

theorem collB34_term {i : Nat} (hi : i < 34) : AmongLast collB34 16 (term34 i) ↔ 18 ≤ i := by
  have h : (Pre.run collB34).terms.length = 34 := by decide +kernel
  have he : ∀ i (hi : i < (Pre.run collB34).terms.length), (Pre.run collB34).terms[i] = term34 i := by decide +kernel
  have := collB34_valid.ready.amongLast (by omega) (i := i) (by omega)
  rw [he, h] at this
  exact this

theorem collB34_gone {r : Nat × List Str} (hr : r ∈ collB34) : Gone collB34 r.2 ↔ r.1 ≠ 17 ∧ r.1 ≠ 18 := by
  obtain ⟨i, hi, rfl⟩ := List.getElem_of_mem hr
  have h : collB34.length = 34 := by decide +kernel
  have he : ∀ i (hi : i < collB34.length), collB34[i].1 = 34 - i ∧ collB34[i].2 = [term34 i, term34 (33 - i)] := by decide +kernel
  unfold Gone
  rw [collB34_last hi, (he i hi).1, (he i hi).2]
  simp only [List.mem_cons, List.not_mem_nil, or_false, exists_eq_or_imp, exists_eq_left]
  rw [collB34_term (by omega), collB34_term (by omega)]
  omega

/-- The completion with the smallest id is lost, so the empty query reads out of bounds (`C69_fault`); the hypotheses of `C69_partial` hold of the query
"aq ar", the completion number 16, that matches it. -/
theorem collB34_case : GoneDoc collB34 1 ∧ (∀ G : Coll, G.Nodup → (∀ r ∈ G, r ∈ collB34 ∧ r.1 < 1) → G.length < 1) ∧
    (∀ r ∈ collB34, 15 * (joined r.2).length + 2 * MAX_CHARS ≤ POOL_SIZE) ∧ LastOk collB34 [97, 114] ∧
    PrefixMatch [[97, 113]] [97, 114] [[97, 113], [97, 114]] ∧ (18, [[97, 113], [97, 114]]) ∈ collB34 ∧
    (∀ c, IsFirstCompletion collB34 c → ¬ PrefixMatch [[97, 113]] [97, 114] c) ∧
    (∀ r ∈ collB34, PrefixMatch [[97, 113]] [97, 114] r.2 → ¬ Gone collB34 r.2) ∧
    (∀ r ∈ collB34, ConjMatch collB34 [[97, 113]] [97, 114] r.2 → ¬ Gone collB34 r.2) ∧ (∀ t ∈ [[97, 113]], ¬ AmongLast collB34 16 t) ∧
    completeTerms [97, 113, 32, 97, 114] = [[97, 113]] ∧ lastTerm [97, 113, 32, 97, 114] = [97, 114] := by
  have only : ∀ r ∈ collB34, [97, 113] ∈ r.2 → r.1 = 18 ∨ r.1 = 17 := by decide +kernel
  have hno : ∀ r ∈ collB34, [97, 113] ∈ r.2 → ¬ Gone collB34 r.2 := by
    intro r hr hm
    rw [collB34_gone hr]
    have := only r hr hm
    omega
  refine ⟨⟨[term34 33, term34 0], by decide +kernel, (collB34_gone (r := (1, _)) (by decide +kernel)).mpr (by decide)⟩, ?_, by decide +kernel,
    lastOk_of collB34_valid (by decide +kernel), ⟨[97, 114], by decide, by decide⟩, by decide +kernel, ?_, ?_, ?_, ?_, by decide, by decide⟩
  · have h0 : ∀ r ∈ collB34, ¬ r.1 < 1 := by decide +kernel
    intro G _ hG
    cases G with
    | nil => simp
    | cons r G => exact absurd (hG r (by simp)).2 (h0 r (hG r (by simp)).1)
  · rintro c ⟨d, hd⟩ ⟨x, _, hp⟩
    have a4 : collB34.head? = some (34, [term34 0, term34 33]) := by decide +kernel
    rw [a4] at hd
    cases hd
    revert hp
    simp [term34]
  · rintro r hr ⟨y, _, hp⟩
    exact hno r hr (hp.subset (by simp))
  · rintro r hr ⟨h0, _⟩
    exact hno r hr (h0 [97, 113] (by simp) ⟨(18, [[97, 113], [97, 114]]), by decide +kernel, by simp⟩)
  · intro t ht
    simp only [List.mem_singleton] at ht
    subst ht
    have := collB34_term (i := 16) (by omega)
    rw [show term34 16 = [97, 113] by decide] at this
    rw [this]
    omega

end AC.Props
