import Verif.Proofs.Lossy4
import Verif.Props.Prefix
/-!
# C66: completions of collections whose number of terms is a multiple of 17
-/
namespace AC.Props
open AC Spec

theorem Suits17.doc {C : Coll} (h : Suits17 C) : ∃ r ∈ C, r.1 ≠ 0 := by
  obtain ⟨t, ⟨r, hr, ht⟩, hn⟩ := h.doc0
  refine ⟨r, hr, fun h0 => hn r.2 ?_ ht⟩
  rw [← h0]; exact hr

theorem Suits17.mod {C : Coll} (hC : ValidColl C) (h : Suits17 C) : (Pre.run C).terms.length % 17 = 0 := by
  obtain ⟨n, hn, h17⟩ := h.terms
  rwa [hC.ready.numTerms_eq hn] at h17

/-! ## What the searches return -/

/-- prefix search with type 1: as in `C01_exact`, with the terms that the dictionary still finds; when one of the results has one of the
last 16 terms, the search reads out of bounds -/
theorem C66_prefix1_exact (std : StdLib) {C : Coll} (hC : ValidColl C) (hw : Suits17 C) (mem : Nat → W) :
    ∃ x, Index1.build (Pre.run C) mem = .ok x ∧ ∀ q k s, IsText q → 1 ≤ k → k ≤ MAX_K → Scratch.WF s →
      Outcome17 C (Pre.run C).terms (PrefixKept C (completeTerms q) (lastTerm q)) k (x.prefixTopk std q k s) ∧
      Outcome17 C (Pre.run C).terms (ConjKept C (completeTerms q) (lastTerm q)) k (x.conjTopk std q k s) := by
  obtain ⟨x, h1, h2⟩ := Index1.build_lossy hC.ready (Suits17.mod hC hw) (Suits17.doc hw) (hC.ready.minList hw.doc0) mem
  exact ⟨x, h1, fun q k s hq hk hk' hs => ⟨Index1.prefix_outcome17 std hC.ready h2 hq hk hk' hs, Index1.conj_lossy std hC.ready h2 hq hk hk' hs⟩⟩

/-- the searches with type 2 -/
theorem C66_type2_exact (std : StdLib) {C : Coll} (hC : ValidColl C) (hw : Suits17b C) (mem : Nat → W) :
    ∃ x, Index2.build (Pre.run C) mem = .ok x ∧ ∀ q k s, IsText q → 1 ≤ k → k ≤ MAX_K → Scratch.WF s →
      Outcome17 C (Pre.run C).terms (PrefixKept2 C (completeTerms q) (lastTerm q)) k (x.toBase.prefixTopk std q k s) ∧
      Outcome17 C (Pre.run C).terms (ConjKept C (completeTerms q) (lastTerm q)) k (x.conjTopk std q k s) := by
  obtain ⟨x, h1, h2⟩ := Index2.build_lossy hC.ready (Suits17.mod hC hw.toSuits17) (by rw [hC.ready.length_mapped]; exact hw.count)
    (Suits17.doc hw.toSuits17) (hC.ready.minList hw.doc0) mem
  exact ⟨x, h1, fun q k s hq hk hk' hs => ⟨Base.prefix_outcome17 std hC.ready h2.base h2.dict h2.built hq hk hk' hs,
    Index2.conj_lossy std hC.ready h2 hq hk hk' hs⟩⟩

/-- the searches with type 3 -/
theorem C66_type3_exact (std : StdLib) {C : Coll} (hC : ValidColl C) (hw : Suits17b C) (mem : Nat → W) :
    ∃ x, Index3.build (Pre.run C) mem = .ok x ∧ ∀ q k s, IsText q → 1 ≤ k → k ≤ MAX_K → Scratch.WF s →
      Outcome17 C (Pre.run C).terms (PrefixKept2 C (completeTerms q) (lastTerm q)) k (x.toBase.prefixTopk std q k s) ∧
      Outcome17 C (Pre.run C).terms (ConjKept C (completeTerms q) (lastTerm q)) k (x.conjTopk std q k s) := by
  obtain ⟨x, h1, h2⟩ := Index3.build_lossy hC.ready (Suits17.mod hC hw.toSuits17) (by rw [hC.ready.length_mapped]; exact hw.count)
    (Suits17.doc hw.toSuits17) mem
  exact ⟨x, h1, fun q k s hq hk hk' hs => ⟨Base.prefix_outcome17 std hC.ready h2.base h2.dict h2.built hq hk hk' hs,
    Index3.conj_lossy std hC.ready h2 hq hk hk' hs⟩⟩

/-- the searches with type 4: what prefix search returns, and what conjunctive search may return -/
theorem C66_type4 (std : StdLib) {C : Coll} (hC : ValidColl C) (hw : Suits17b C) (hids : ∀ r ∈ C, r.1 < 2 ^ 32 - 2) (m : Nat) (mem : Nat → W) :
    ∃ x, Index4.build std m (Pre.run C) mem = .ok x ∧ ∀ q k s, IsText q → 1 ≤ k → k ≤ MAX_K → Scratch.WF s →
      Outcome17 C (Pre.run C).terms (PrefixKept2 C (completeTerms q) (lastTerm q)) k (x.toBase.prefixTopk std q k s) ∧
      Sound17 C (Pre.run C).terms (ConjKept C (completeTerms q) (lastTerm q)) k (x.conjTopk std q k s) := by
  obtain ⟨x, docss, h1, h2⟩ := Index4.build_lossy hC.ready (Suits17.mod hC hw.toSuits17) (by rw [hC.ready.length_mapped]; exact hw.count)
    (Suits17.doc hw.toSuits17) std m mem
  exact ⟨x, h1, fun q k s hq hk hk' hs => ⟨Base.prefix_outcome17 std hC.ready h2.base h2.dict h2.built hq hk hk' hs,
    Index4.conj_lossy hC.ready std h2 hids hq hk hk' hs⟩⟩

/-- collections like these, of any size, have terms that are lost -/
theorem Suits17.lost {C : Coll} (hC : ValidColl C) (hw : Suits17 C) : ∃ d c, (d, c) ∈ C ∧ ∃ t ∈ c, AmongLast C 16 t := by
  have h := hC.ready
  have hm := Suits17.mod hC hw
  have hne := h.terms_ne0 (Suits17.doc hw)
  have hpos : 0 < (Pre.run C).terms.length := List.length_pos_iff.mpr hne
  have hi : (Pre.run C).terms.length - 1 < (Pre.run C).terms.length := by omega
  have h1 := (h.amongLast (by omega) hi).mpr (by omega)
  obtain ⟨r, hr, ht⟩ := h1.1
  exact ⟨r.1, r.2, hr, _, ht, h1⟩

/-! ## What a client observes -/

/-- What a search shows and what it does not. `search q k s` is the search for the query `q` with `k` results, from the state `s` left by earlier
searches. -/
def ShowsNone (search : Str → Nat → Scratch → M Scratch) (D : Nat → Prop) : Prop :=
  ∀ q k s s' res, IsText q → 1 ≤ k → k ≤ MAX_K → Scratch.WF s → search q k s = .ok s' → s'.pool.results = .ok res →
    ∀ e ∈ res, ¬ D e.1

/-- the document has one of the last 16 terms -/
def HasLost (C : Coll) (d : Nat) : Prop := ∃ c, (d, c) ∈ C ∧ ∃ t ∈ c, AmongLast C 16 t

theorem _root_.AC.Sound17.ok {C : Coll} (hC : ValidColl C) {terms : List Str} {P : List Str → Prop} {k : Nat} {s' : Scratch} {res : List (Nat × Str)} {o : M Scratch}
    (h : Sound17 C terms P k o) (ho : o = .ok s') (hr : s'.pool.results = .ok res) :
    ∀ e ∈ res, ∃ c, (e.1, c) ∈ C ∧ e.2 = joined c ∧ P c ∧ ¬ HasLost C e.1 := by
  obtain ⟨E, _, b, h1, h2⟩ := h
  have hno : ∀ r ∈ E, ∀ t ∈ r.2, ¬ AmongLast C 16 t := by
    intro r hr t ht hl
    have := h2 ⟨r, hr, t, ht, hl⟩
    rw [ho] at this
    simp at this
  have h3 := h1 hno
  rw [ho] at h3
  rcases h3 with ⟨e1, _⟩ | ⟨s2, e1, _, e2, _⟩
  · simp at e1
  · cases e1
    rw [hr] at e2
    cases e2
    intro e he
    obtain ⟨r, hr', rfl⟩ := List.mem_map.mp he
    refine ⟨r.2, (b r hr').1, rfl, (b r hr').2, ?_⟩
    rintro ⟨c, hc, t, ht, hl⟩
    have : c = r.2 := hC.ready.unique (d := r.1) hc (b r hr').1
    subst this
    exact hno r hr' t ht hl

theorem _root_.AC.Outcome17.ok {C : Coll} (hC : ValidColl C) {terms : List Str} {P : List Str → Prop} {k : Nat} {s' : Scratch} {res : List (Nat × Str)}
    {o : M Scratch} (h : Outcome17 C terms P k o) (ho : o = .ok s') (hr : s'.pool.results = .ok res) :
    ∀ e ∈ res, ∃ c, (e.1, c) ∈ C ∧ e.2 = joined c ∧ P c ∧ ¬ HasLost C e.1 := h.sound.ok hC ho hr

theorem _root_.AC.Outcome17.none {C : Coll} (hC : ValidColl C) {terms : List Str} {P : Str → List Str → Prop} {search : Str → Nat → Scratch → M Scratch}
    (h : ∀ q k s, IsText q → 1 ≤ k → k ≤ MAX_K → Scratch.WF s → Outcome17 C terms (P q) k (search q k s)) : ShowsNone search (HasLost C) := by
  intro q k s s' res hq hk hk' hs ho hr e he
  obtain ⟨_, _, _, _, h4⟩ := (h q k s hq hk hk' hs).ok hC ho hr e he
  exact h4

/-- **C66 is false**: whatever the collection, when its number of terms is a multiple of 17, some completions are never shown, by no search,
not even for their own texts -/
theorem C66_false (std : StdLib) {C : Coll} (hC : ValidColl C) (hw : Suits17 C) (mem : Nat → W) :
    (∃ d c, (d, c) ∈ C ∧ HasLost C d ∧ PrefixMatch (c.take (c.length - 1)) (c.getLastD []) c) ∧
    ∃ x, Index1.build (Pre.run C) mem = .ok x ∧ ShowsNone (x.prefixTopk std) (HasLost C) ∧ ShowsNone (x.conjTopk std) (HasLost C) := by
  constructor
  · obtain ⟨d, c, hc, t, ht, hl⟩ := Suits17.lost hC hw
    refine ⟨d, c, hc, ⟨c, hc, t, ht, hl⟩, c.getLastD [], List.prefix_refl _, ?_⟩
    have hne : c ≠ [] := hC.nonempty _ hc
    rw [List.getLastD_eq_getLast?, List.getLast?_eq_some_getLast hne, ← List.dropLast_eq_take]
    simp [List.dropLast_concat_getLast hne]
  · obtain ⟨x, h1, h2⟩ := C66_prefix1_exact std hC hw mem
    exact ⟨x, h1, Outcome17.none hC (fun q k s a b c d => (h2 q k s a b c d).1), Outcome17.none hC (fun q k s a b c d => (h2 q k s a b c d).2)⟩

/-- the same with type 2 -/
theorem C66_false2 (std : StdLib) {C : Coll} (hC : ValidColl C) (hw : Suits17b C) (mem : Nat → W) :
    (∃ d c, (d, c) ∈ C ∧ HasLost C d) ∧
    ∃ x, Index2.build (Pre.run C) mem = .ok x ∧ ShowsNone (x.toBase.prefixTopk std) (HasLost C) ∧ ShowsNone (x.conjTopk std) (HasLost C) := by
  constructor
  · obtain ⟨d, c, hc, h⟩ := Suits17.lost hC hw.toSuits17
    exact ⟨d, c, hc, c, hc, h⟩
  · obtain ⟨x, h1, h2⟩ := C66_type2_exact std hC hw mem
    exact ⟨x, h1, Outcome17.none hC (fun q k s a b c d => (h2 q k s a b c d).1), Outcome17.none hC (fun q k s a b c d => (h2 q k s a b c d).2)⟩

/-- the same with type 3 -/
theorem C66_false3 (std : StdLib) {C : Coll} (hC : ValidColl C) (hw : Suits17b C) (mem : Nat → W) :
    (∃ d c, (d, c) ∈ C ∧ HasLost C d) ∧
    ∃ x, Index3.build (Pre.run C) mem = .ok x ∧ ShowsNone (x.toBase.prefixTopk std) (HasLost C) ∧ ShowsNone (x.conjTopk std) (HasLost C) := by
  constructor
  · obtain ⟨d, c, hc, h⟩ := Suits17.lost hC hw.toSuits17
    exact ⟨d, c, hc, c, hc, h⟩
  · obtain ⟨x, h1, h2⟩ := C66_type3_exact std hC hw mem
    exact ⟨x, h1, Outcome17.none hC (fun q k s a b c d => (h2 q k s a b c d).1), Outcome17.none hC (fun q k s a b c d => (h2 q k s a b c d).2)⟩

/-- the same with type 4 -/
theorem C66_false4 (std : StdLib) {C : Coll} (hC : ValidColl C) (hw : Suits17b C) (hids : ∀ r ∈ C, r.1 < 2 ^ 32 - 2) (m : Nat) (mem : Nat → W) :
    (∃ d c, (d, c) ∈ C ∧ HasLost C d) ∧
    ∃ x, Index4.build std m (Pre.run C) mem = .ok x ∧ ShowsNone (x.toBase.prefixTopk std) (HasLost C) ∧ ShowsNone (x.conjTopk std) (HasLost C) := by
  constructor
  · obtain ⟨d, c, hc, h⟩ := Suits17.lost hC hw.toSuits17
    exact ⟨d, c, hc, c, hc, h⟩
  · obtain ⟨x, h1, h2⟩ := C66_type4 std hC hw hids m mem
    refine ⟨x, h1, Outcome17.none hC (fun q k s a b c d => (h2 q k s a b c d).1), ?_⟩
    intro q k s s' res hq hk hk' hs ho hr e he
    obtain ⟨_, _, _, _, h4⟩ := (h2 q k s hq hk hk' hs).2.ok hC ho hr e he
    exact h4

/-- The server reads out of bounds: when one of the `k` completions with the smallest document ids has a lost term, the empty query (the text
field of the web page just cleared, a query of blanks) does so. The completion `c` is among them when fewer than `k` completions have smaller
ids. -/
theorem C66_fault (std : StdLib) {C : Coll} (hC : ValidColl C) (hw : Suits17 C) (mem : Nat → W) :
    ∃ x, Index1.build (Pre.run C) mem = .ok x ∧ ∀ q k s d, IsText q → completeTerms q = [] → lastTerm q = [] → 1 ≤ k → k ≤ MAX_K → Scratch.WF s →
      HasLost C d → (∀ G : Coll, G.Nodup → (∀ r ∈ G, r ∈ C ∧ r.1 < d) → G.length < k) →
      x.prefixTopk std q k s = .error .oob ∧ x.conjTopk std q k s = .error .oob := by
  obtain ⟨x, h1, h2⟩ := C66_prefix1_exact std hC hw mem
  refine ⟨x, h1, ?_⟩
  intro q k s d hq hqc hql hk hk' hs ⟨c, hc, t, ht, hl⟩ hG
  have key : ∀ {P : List Str → Prop} {o : M Scratch}, (∀ c, (d, c) ∈ C → P c) → Outcome17 C (Pre.run C).terms P k o → o = .error .oob := by
    rintro P o hP ⟨E, b, _, h4⟩
    refine h4 ⟨(d, c), ?_, t, ht, hl⟩
    apply Classical.byContradiction
    intro hn
    obtain ⟨e1, e2⟩ := b.complete (d, c) hc (hP c hc) hn
    have := hG E (b.sorted.imp (fun {a b} hab he => by rw [he] at hab; exact Nat.lt_irrefl _ hab)) (fun r hr => ⟨(b.sound r hr).1, e2 r hr⟩)
    omega
  have hne : ∀ c, (d, c) ∈ C → c ≠ [] := fun c hc => hC.nonempty _ hc
  have hreach : ∀ y, ReachesKept C [] y := fun y => ⟨⟨List.nil_prefix, fun _ => Or.inl rfl⟩, Or.inl rfl⟩
  obtain ⟨h3, h4⟩ := h2 q k s hq hk hk' hs
  rw [hqc, hql] at h3 h4
  refine ⟨key ?_ h3, key ?_ h4⟩
  · intro c hc
    obtain ⟨y, ys, rfl⟩ := List.exists_cons_of_ne_nil (hne c hc)
    exact ⟨by simp, y, hreach y, by simp⟩
  · intro c hc
    obtain ⟨y, ys, rfl⟩ := List.exists_cons_of_ne_nil (hne c hc)
    exact ⟨by simp, y, by simp, hreach y⟩

/-- Conjunctive search is unsound too: for a query with a lost term among its complete terms, every completion shown lacks this term, which is
in the collection -/
theorem C66_unsound (std : StdLib) {C : Coll} (hC : ValidColl C) (hw : Suits17 C) (mem : Nat → W) :
    ∃ x, Index1.build (Pre.run C) mem = .ok x ∧ ∀ q k s s' res t, IsText q → 1 ≤ k → k ≤ MAX_K → Scratch.WF s →
      t ∈ completeTerms q → AmongLast C 16 t → x.conjTopk std q k s = .ok s' → s'.pool.results = .ok res →
      ∀ e ∈ res, ∃ c, (e.1, c) ∈ C ∧ e.2 = joined c ∧ t ∉ c ∧ ¬ ConjMatch C (completeTerms q) (lastTerm q) c := by
  obtain ⟨x, h1, h2⟩ := C66_prefix1_exact std hC hw mem
  refine ⟨x, h1, ?_⟩
  intro q k s s' res t hq hk hk' hs ht hl ho hr e he
  obtain ⟨c, hc, e1, _, e2⟩ := (h2 q k s hq hk hk' hs).2.ok hC ho hr e he
  have hn : t ∉ c := fun h => e2 ⟨c, hc, t, h, hl⟩
  exact ⟨c, hc, e1, hn, fun h => hn (h.1 t ht hl.1)⟩

/-! ## What remains -/

theorem _root_.AC.Outcome17.answer {C : Coll} {terms : List Str} {P Q : List Str → Prop} {k : Nat} {o : M Scratch} (h : Outcome17 C terms P k o)
    (hpq : ∀ r ∈ C, P r.2 ↔ Q r.2) (hno : ∀ r ∈ C, Q r.2 → ¬ HasLost C r.1)
    (hroom : ∀ E, Spec.Best C Q k E → room E + 2 * MAX_CHARS ≤ POOL_SIZE) :
    ∃ s res, o = .ok s ∧ s.WF ∧ s.pool.results = .ok res ∧ Answer C Q k res := by
  obtain ⟨E, b, h1, _⟩ := h
  have o1 : Outcome C terms P k o := ⟨E, b, h1 (fun r hr t ht hl => by
    have := b.sound r hr
    exact hno r this.1 ((hpq r this.1).mp this.2) ⟨r.2, this.1, t, ht, hl⟩)⟩
  exact (o1.congr hpq).answer hroom

/-- **C66**, what is left of it: the searches with type 1 answer as with other numbers of terms when no completion that matches has a lost term
and, for conjunctive search, no complete term of the query is lost. Missing: all other queries (`C66_false`, `C66_fault`, `C66_unsound`). -/
theorem C66_prefix1_partial (std : StdLib) {C : Coll} (hC : ValidColl C) (hw : Suits17 C) (mem : Nat → W) :
    ∃ x, Index1.build (Pre.run C) mem = .ok x ∧ ∀ q k s, IsText q → 1 ≤ k → k ≤ MAX_K → Scratch.WF s → LastOk C (lastTerm q) →
      (∀ r ∈ C, k * (joined r.2).length + 2 * MAX_CHARS ≤ POOL_SIZE) →
      ((∀ r ∈ C, PrefixMatch (completeTerms q) (lastTerm q) r.2 → ¬ HasLost C r.1) →
        ∃ s' res, x.prefixTopk std q k s = .ok s' ∧ s'.WF ∧ s'.pool.results = .ok res ∧
          Answer C (PrefixMatch (completeTerms q) (lastTerm q)) k res) ∧
      ((∀ r ∈ C, ConjMatch C (completeTerms q) (lastTerm q) r.2 → ¬ HasLost C r.1) → (∀ t ∈ completeTerms q, ¬ AmongLast C 16 t) →
        ∃ s' res, x.conjTopk std q k s = .ok s' ∧ s'.WF ∧ s'.pool.results = .ok res ∧
          Answer C (ConjMatch C (completeTerms q) (lastTerm q)) k res) := by
  obtain ⟨x, h1, h2⟩ := C66_prefix1_exact std hC hw mem
  refine ⟨x, h1, ?_⟩
  intro q k s hq hk hk' hs hl hroom
  obtain ⟨h3, h4⟩ := h2 q k s hq hk hk' hs
  constructor
  · intro hno
    refine h3.answer (fun r hr => ?_) hno (room_of hk hroom)
    constructor
    · rintro ⟨_, y, hy, hp⟩; exact ⟨y, hy.1.1, hp⟩
    · intro hm
      have hn := hno r hr hm
      obtain ⟨y, hy, hp⟩ := hm
      have hsub : ∀ t ∈ completeTerms q ++ [y], t ∈ r.2 := fun t ht => hp.subset ht
      have hk : ∀ t ∈ completeTerms q ++ [y], ¬ AmongLast C 16 t := fun t ht hl => hn ⟨r.2, hr, t, hsub t ht, hl⟩
      exact ⟨fun t ht => ⟨⟨r, hr, hsub t (by simp [ht])⟩, hk t (by simp [ht])⟩, y, ⟨⟨hy, fun hf => hl y hf hy⟩, Or.inr (hk y (by simp))⟩, hp⟩
  · intro hno hc
    refine h4.answer (fun r hr => ?_) hno (room_of hk hroom)
    constructor
    · rintro ⟨h0, y, hy, hp⟩; exact ⟨fun t ht hi => h0 t ht ⟨hi, hc t ht⟩, y, hy, hp.1.1⟩
    · intro hm
      have hn := hno r hr hm
      obtain ⟨h0, y, hy, hp⟩ := hm
      exact ⟨fun t ht hi => h0 t ht hi.1, y, hy, ⟨hp, fun hf => hl y hf hp⟩, Or.inr (fun hl => hn ⟨r.2, hr, y, hy, hl⟩)⟩

/-! ## A collection -/

/-- the 34 completions of one term "aa", "ab", …, "bh", with document ids from 34 down to 1, and "aa ab" -/
def coll34 : Coll :=
  (34, [[97, 97]]) :: (40, [[97, 97], [97, 98]]) :: (List.range 33).map (fun i => (33 - i, [[97 + (i + 1) / 26, 97 + (i + 1) % 26]]))

theorem coll34_valid : ValidColl coll34 :=
  ⟨by decide, by decide +kernel, by decide +kernel, by decide +kernel, by decide +kernel, by decide +kernel, by decide +kernel, by decide +kernel,
    by decide +kernel, by decide +kernel⟩

theorem coll34_suits : Suits17b coll34 :=
  { terms := ⟨_, coll34_valid.ready.numTerms, by decide +kernel⟩
    doc0 := ⟨[97, 97], ⟨(34, [[97, 97]]), by decide, by decide⟩, by
      have : ∀ r ∈ coll34, r.1 ≠ 0 := by decide +kernel
      intro c hc
      exact absurd rfl (this _ hc)⟩
    count := by decide }

theorem coll34_lost {i : Nat} (hi : 18 ≤ i) (hi' : i < (Pre.run coll34).terms.length) : AmongLast coll34 16 (Pre.run coll34).terms[i] :=
  (coll34_valid.ready.amongLast (by decide +kernel) hi').mpr (by have : (Pre.run coll34).terms.length = 34 := by decide +kernel
                                                                 omega)

/-- "bh" is lost, and its completion has the smallest document id, so the empty query reads out of bounds (`C66_fault`); "bh a" is a query for
`C66_unsound` and "aa a" one for `C66_prefix1_partial` -/
example : HasLost coll34 1 ∧ AmongLast coll34 16 [98, 104] ∧ (∀ G : Coll, G.Nodup → (∀ r ∈ G, r ∈ coll34 ∧ r.1 < 1) → G.length < 1) ∧
    completeTerms [32] = [] ∧ lastTerm [32] = [] ∧ [98, 104] ∈ completeTerms [98, 104, 32, 97] ∧
    (∀ r ∈ coll34, 15 * (joined r.2).length + 2 * MAX_CHARS ≤ POOL_SIZE) := by
  have h1 : AmongLast coll34 16 [98, 104] := by
    have h : (Pre.run coll34).terms[33]'(by decide +kernel) = [98, 104] := by decide +kernel
    rw [← h]
    exact coll34_lost (by omega) _
  refine ⟨⟨[[98, 104]], by decide +kernel, _, by simp, h1⟩, h1, ?_, by decide, by decide, by decide, by decide +kernel⟩
  have h0 : ∀ r ∈ coll34, ¬ r.1 < 1 := by decide +kernel
  intro G _ hG
  cases G with
  | nil => simp
  | cons r G => exact absurd (hG r (by simp)).2 (h0 r (hG r (by simp)).1)

theorem coll34_kept {i : Nat} (hi : i < 18) (hi' : i < (Pre.run coll34).terms.length) : ¬ AmongLast coll34 16 (Pre.run coll34).terms[i] := by
  rw [coll34_valid.ready.amongLast (by decide +kernel) hi']
  have : (Pre.run coll34).terms.length = 34 := by decide +kernel
  omega

/-- the hypotheses of the two parts of `C66_prefix1_partial` hold of the query "aa ab", that "aa ab" matches -/
example : LastOk coll34 [97, 98] ∧ PrefixMatch [[97, 97]] [97, 98] [[97, 97], [97, 98]] ∧
    (∀ r ∈ coll34, PrefixMatch [[97, 97]] [97, 98] r.2 → ¬ HasLost coll34 r.1) ∧
    (∀ r ∈ coll34, ConjMatch coll34 [[97, 97]] [97, 98] r.2 → ¬ HasLost coll34 r.1) ∧ (∀ t ∈ [[97, 97]], ¬ AmongLast coll34 16 t) ∧
    completeTerms [97, 97, 32, 97, 98] = [[97, 97]] ∧ lastTerm [97, 97, 32, 97, 98] = [97, 98] := by
  have a0 : ¬ AmongLast coll34 16 [97, 97] := by
    have h : (Pre.run coll34).terms[0]'(by decide +kernel) = [97, 97] := by decide +kernel
    rw [← h]; exact coll34_kept (by omega) _
  have a1 : ¬ AmongLast coll34 16 [97, 98] := by
    have h : (Pre.run coll34).terms[1]'(by decide +kernel) = [97, 98] := by decide +kernel
    rw [← h]; exact coll34_kept (by omega) _
  have only : ∀ r ∈ coll34, [97, 97] ∈ r.2 → r = (34, [[97, 97]]) ∨ r = (40, [[97, 97], [97, 98]]) := by decide +kernel
  have only' : ∀ r ∈ coll34, (r.1 = 34 → r.2 = [[97, 97]]) ∧ (r.1 = 40 → r.2 = [[97, 97], [97, 98]]) := by decide +kernel
  have hno : ∀ r ∈ coll34, [97, 97] ∈ r.2 → ¬ HasLost coll34 r.1 := by
    rintro r hr hm ⟨c, hc, t, ht, hl⟩
    have hc' := only' _ hc
    rcases only r hr hm with rfl | rfl
    · have : c = [[97, 97]] := hc'.1 rfl
      subst this
      simp only [List.mem_singleton] at ht
      subst ht
      exact a0 hl
    · have : c = [[97, 97], [97, 98]] := hc'.2 rfl
      subst this
      simp only [List.mem_cons, List.not_mem_nil, or_false] at ht
      rcases ht with rfl | rfl
      · exact a0 hl
      · exact a1 hl
  refine ⟨lastOk_of coll34_valid (by decide +kernel), ⟨[97, 98], by decide, by decide⟩, ?_, ?_, by simpa using a0, by decide, by decide⟩
  · rintro r hr ⟨y, _, hp⟩
    exact hno r hr (hp.subset (by simp))
  · rintro r hr ⟨h0, _⟩
    exact hno r hr (h0 [97, 97] (by simp) ⟨(34, [[97, 97]]), by decide, by simp⟩)

end AC.Props
