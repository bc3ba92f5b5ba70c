import Verif.Proofs.LostCompletions
import Verif.Props.Multiple17
import Verif.Props.Type4
/-!
# C68: completions of collections whose number of completions is a multiple of 17, with types 2, 3 and 4
-/
namespace AC.Props
open AC Spec

theorem Suits17c.mod {C : Coll} (hC : ValidColl C) (h : Suits17c C) : (Pre.run C).terms.length % 17 ≠ 0 := by
  obtain ⟨n, hn, h17⟩ := h.terms
  rwa [hC.ready.numTerms_eq hn] at h17

/-! ## What the searches return -/

/-- The searches with type 3. Prefix search: as in `C02_exact`, without the last 16 completions. Conjunctive search: as in `C05_exact`, unless one
of the results is one of the last 16 completions; then it reads out of bounds. -/
theorem C68_type3_exact (std : StdLib) {C : Coll} (hC : ValidColl C) (hw : Suits17c C) (mem : Nat → W) :
    ∃ x, Index3.build (Pre.run C) mem = .ok x ∧ ∀ q k s, IsText q → 1 ≤ k → k ≤ MAX_K → Scratch.WF s →
      Outcome C (Pre.run C).terms (PrefixKeptC C (completeTerms q) (lastTerm q)) k (x.toBase.prefixTopk std q k s) ∧
      OutcomeC C (Pre.run C).terms (ConjFound C (completeTerms q) (lastTerm q)) k (x.conjTopk std q k s) := by
  obtain ⟨x, h1, h2⟩ := Index3.build_lost hC.ready (Suits17c.mod hC hw) hw.count (hC.ready.keptDoc hw.count hw.doc) mem
  exact ⟨x, h1, fun q k s hq hk hk' hs => ⟨Base.prefix_spec17 hC.ready std h2.base h2.dict h2.built hq hk hk' hs,
    Index3.conj_specC hC.ready std h2 hq hk hk' hs⟩⟩

/-- The searches with type 2. Conjunctive search loads all the completions with the complete terms that come before its last result, and reads out
of bounds when one of these is one of the last 16. -/
theorem C68_type2_exact (std : StdLib) {C : Coll} (hC : ValidColl C) (hw : Suits17d C) (mem : Nat → W) :
    ∃ x, Index2.build (Pre.run C) mem = .ok x ∧ ∀ q k s, IsText q → 1 ≤ k → k ≤ MAX_K → Scratch.WF s →
      Outcome C (Pre.run C).terms (PrefixKeptC C (completeTerms q) (lastTerm q)) k (x.toBase.prefixTopk std q k s) ∧
      Outcome2C C (Pre.run C).terms (completeTerms q) (lastTerm q) k (x.conjTopk std q k s) := by
  obtain ⟨x, h1, h2⟩ := Index2.build_lost hC.ready (Suits17c.mod hC hw.toSuits17c) hw.count (hC.ready.keptDoc hw.count hw.doc)
    (hC.ready.minList hw.doc0) mem
  exact ⟨x, h1, fun q k s hq hk hk' hs => ⟨Base.prefix_spec17 hC.ready std h2.base h2.dict h2.built hq hk hk' hs,
    Index2.conj_specC hC.ready std h2 hq hk hk' hs⟩⟩

/-- The searches with type 4. Conjunctive search: as in `C06_exact`, unless one of the results is one of the last 16 completions. -/
theorem C68_type4_exact (std : StdLib) {C : Coll} (hC : ValidColl C) (hw : Suits17c C) (hids : ∀ r ∈ C, r.1 < 2 ^ 32 - 2) (m : Nat) (mem : Nat → W) :
    ∃ x B, Index4.build std m (Pre.run C) mem = .ok x ∧ IsBlocks C m B ∧ ∀ q, IsText q →
      (∀ k s, 1 ≤ k → k ≤ MAX_K → Scratch.WF s →
        Outcome C (Pre.run C).terms (PrefixKeptC C (completeTerms q) (lastTerm q)) k (x.toBase.prefixTopk std q k s)) ∧
      ∃ S, Result4 C B (completeTerms q) (lastTerm q) S ∧ ∀ k, 1 ≤ k → k ≤ MAX_K → ∀ s : Scratch, s.WF →
        ((∀ r ∈ S.take k, ¬ LastCompletion C 16 r.2) → Shows (Pre.run C).terms (S.take k) (x.conjTopk std q k s)) ∧
        ((∃ r ∈ S.take k, LastCompletion C 16 r.2) → x.conjTopk std q k s = .error .oob) := by
  obtain ⟨x, docss, h1, h2⟩ := Index4.build_lost hC.ready (Suits17c.mod hC hw) hw.count (hC.ready.keptDoc hw.count hw.doc) std m mem
  exact ⟨x, _, h1, hC.ready.blocks h2.inverted.cut, fun q hq => ⟨fun k s hk hk' hs => Base.prefix_spec17 hC.ready std h2.base h2.dict h2.built hq hk hk' hs,
    Index4.conj_specC hC.ready std h2 hids hq⟩⟩

/-! ## What a client observes -/

/-- the document of one of the last 16 completions -/
def Lost (C : Coll) (d : Nat) : Prop := ∃ c, (d, c) ∈ C ∧ LastCompletion C 16 c

/-- collections like these, of any size, have 16 completions that are lost -/
theorem Suits17c.lost {C : Coll} (hC : ValidColl C) (hw : Suits17c C) : ∃ L : List Nat, L.Nodup ∧ L.length = 16 ∧ ∀ d, d ∈ L ↔ Lost C d := by
  have h17 := hw.count
  have hpos : 0 < C.length := List.length_pos_iff.mpr hC.ne
  refine ⟨(C.drop (C.length - 16)).map (·.1), (hC.docs).sublist ((List.drop_sublist _ _).map _), by simp; omega, ?_⟩
  intro d
  rw [List.mem_map]
  constructor
  · rintro ⟨r, hr, rfl⟩
    obtain ⟨i, hi, rfl⟩ := List.getElem_of_mem hr
    rw [List.length_drop] at hi
    rw [List.getElem_drop]
    exact ⟨_, List.getElem_mem _, (hC.ready.lastCompletion (by omega) (by omega)).mpr (by omega)⟩
  · rintro ⟨c, hc, hl⟩
    obtain ⟨i, hi, he⟩ := List.getElem_of_mem hc
    have hl' : LastCompletion C 16 C[i].2 := by rw [he]; exact hl
    rw [hC.ready.lastCompletion (by omega) hi] at hl'
    refine ⟨(d, c), ?_, rfl⟩
    rw [← he, List.mem_drop_iff_getElem]
    exact ⟨i - (C.length - 16), by omega, by congr 1; omega⟩

theorem not_lost {C : Coll} (hC : ValidColl C) {r : Nat × List Str} (hr : r ∈ C) (h : ¬ LastCompletion C 16 r.2) : ¬ Lost C r.1 := by
  rintro ⟨c, hc, hl⟩
  rw [hC.ready.unique (d := r.1) hc hr] at hl
  exact h hl

theorem _root_.AC.Shows.notLost {C : Coll} (hC : ValidColl C) {terms : List Str} {E : Coll} {o : M Scratch} (h : Shows terms E o)
    (hE : ∀ r ∈ E, r ∈ C ∧ ¬ LastCompletion C 16 r.2) {s' : Scratch} {res : List (Nat × Str)} (ho : o = .ok s') (hr : s'.pool.results = .ok res) :
    ∀ e ∈ res, ¬ Lost C e.1 := by
  rw [h.results ho hr]
  intro e he
  obtain ⟨r, hr, rfl⟩ := List.mem_map.mp he
  exact not_lost hC (hE r hr).1 (hE r hr).2

theorem _root_.AC.Outcome.noneLost {C : Coll} (hC : ValidColl C) {terms : List Str} {search : Str → Nat → Scratch → M Scratch}
    (h : ∀ q k s, IsText q → 1 ≤ k → k ≤ MAX_K → Scratch.WF s → Outcome C terms (PrefixKeptC C (completeTerms q) (lastTerm q)) k (search q k s)) :
    ShowsNone search (Lost C) := by
  intro q k s s' res hq hk hk' hs ho hr
  obtain ⟨E, b, h1⟩ := h q k s hq hk hk' hs
  exact h1.notLost hC (fun r hr => ⟨(b.sound r hr).1, (b.sound r hr).2.2⟩) ho hr

/-- **C68 is false** with type 3: whatever the collection, when its number of completions is a multiple of 17, sixteen of them are never shown,
by no search, not even for their own texts -/
theorem C68_false3 (std : StdLib) {C : Coll} (hC : ValidColl C) (hw : Suits17c C) (mem : Nat → W) :
    (∃ L : List Nat, L.Nodup ∧ L.length = 16 ∧ ∀ d, d ∈ L ↔ Lost C d) ∧
    ∃ x, Index3.build (Pre.run C) mem = .ok x ∧ ShowsNone (x.toBase.prefixTopk std) (Lost C) ∧ ShowsNone (x.conjTopk std) (Lost C) := by
  refine ⟨Suits17c.lost hC hw, ?_⟩
  obtain ⟨x, h1, h2⟩ := C68_type3_exact std hC hw mem
  refine ⟨x, h1, Outcome.noneLost hC (fun q k s a b c d => (h2 q k s a b c d).1), ?_⟩
  intro q k s s' res hq hk hk' hs ho hr
  obtain ⟨E, b, h3, h4⟩ := (h2 q k s hq hk hk' hs).2
  have hno : ∀ r ∈ E, ¬ LastCompletion C 16 r.2 := by
    intro r hr hl
    have := h4 ⟨r, hr, hl⟩
    rw [ho] at this
    simp at this
  exact (h3 hno).notLost hC (fun r hr => ⟨(b.sound r hr).1, hno r hr⟩) ho hr

theorem _root_.AC.Spec.Best.examined {C : Coll} {complete : List Str} {last : Str} {k : Nat} {E : Coll} (b : Spec.Best C (ConjFound C complete last) k E)
    {r : Nat × List Str} (hr : r ∈ E) : Examined C complete last k r.1 r.2 := by
  obtain ⟨h1, h2, h3⟩ := (best_mem b r).mp hr
  obtain ⟨h4, x, hx, hre⟩ := h2
  exact ⟨h1, ⟨x, ⟨r, h1, hx⟩, hre⟩, h4, Or.inr ⟨x, hx, hre⟩, h3⟩

/-- the same with type 2 -/
theorem C68_false2 (std : StdLib) {C : Coll} (hC : ValidColl C) (hw : Suits17d C) (mem : Nat → W) :
    (∃ L : List Nat, L.Nodup ∧ L.length = 16 ∧ ∀ d, d ∈ L ↔ Lost C d) ∧
    ∃ x, Index2.build (Pre.run C) mem = .ok x ∧ ShowsNone (x.toBase.prefixTopk std) (Lost C) ∧ ShowsNone (x.conjTopk std) (Lost C) := by
  refine ⟨Suits17c.lost hC hw.toSuits17c, ?_⟩
  obtain ⟨x, h1, h2⟩ := C68_type2_exact std hC hw mem
  refine ⟨x, h1, Outcome.noneLost hC (fun q k s a b c d => (h2 q k s a b c d).1), ?_⟩
  intro q k s s' res hq hk hk' hs ho hr
  obtain ⟨h3, h4⟩ := (h2 q k s hq hk hk' hs).2
  have hno : ¬ ∃ d c, Examined C (completeTerms q) (lastTerm q) k d c ∧ LastCompletion C 16 c := by
    intro hex
    have := h3 hex
    rw [ho] at this
    simp at this
  obtain ⟨E, b, h5⟩ := h4 hno
  exact h5.notLost hC (fun r hr => ⟨(b.sound r hr).1, fun hl => hno ⟨_, _, b.examined hr, hl⟩⟩) ho hr

/-- the same with type 4 -/
theorem C68_false4 (std : StdLib) {C : Coll} (hC : ValidColl C) (hw : Suits17c C) (hids : ∀ r ∈ C, r.1 < 2 ^ 32 - 2) (m : Nat) (mem : Nat → W) :
    (∃ L : List Nat, L.Nodup ∧ L.length = 16 ∧ ∀ d, d ∈ L ↔ Lost C d) ∧
    ∃ x, Index4.build std m (Pre.run C) mem = .ok x ∧ ShowsNone (x.toBase.prefixTopk std) (Lost C) ∧ ShowsNone (x.conjTopk std) (Lost C) := by
  refine ⟨Suits17c.lost hC hw, ?_⟩
  obtain ⟨x, B, h1, _, h2⟩ := C68_type4_exact std hC hw hids m mem
  refine ⟨x, h1, Outcome.noneLost hC (fun q k s a b c d => (h2 q a).1 k s b c d), ?_⟩
  intro q k s s' res hq hk hk' hs ho hr
  obtain ⟨S, s1, s2⟩ := (h2 q hq).2
  obtain ⟨h3, h4⟩ := s2 k hk hk' s hs
  have hno : ∀ r ∈ S.take k, ¬ LastCompletion C 16 r.2 := by
    intro r hr hl
    have := h4 ⟨r, hr, hl⟩
    rw [ho] at this
    simp at this
  exact (h3 hno).notLost hC (fun r hr => ⟨s1.mem r (List.mem_of_mem_take hr), hno r hr⟩) ho hr

/-- The server reads out of bounds, with types 2 and 3: a conjunctive search that has a lost completion among its best `k` does so. The completion of
`d` is among them when it matches and fewer than `k` matching completions have smaller ids. -/
theorem C68_fault (std : StdLib) {C : Coll} (hC : ValidColl C) (hw : Suits17d C) (mem : Nat → W) :
    ∃ x y, Index2.build (Pre.run C) mem = .ok x ∧ Index3.build (Pre.run C) mem = .ok y ∧ ∀ q k s d c, IsText q → 1 ≤ k → k ≤ MAX_K → Scratch.WF s →
      LastOk C (lastTerm q) → (d, c) ∈ C → LastCompletion C 16 c → ConjMatch C (completeTerms q) (lastTerm q) c →
      (∀ G : Coll, G.Nodup → (∀ r ∈ G, r ∈ C ∧ ConjMatch C (completeTerms q) (lastTerm q) r.2 ∧ r.1 < d) → G.length < k) →
      x.conjTopk std q k s = .error .oob ∧ y.conjTopk std q k s = .error .oob := by
  obtain ⟨x, h1, h2⟩ := C68_type2_exact std hC hw mem
  obtain ⟨y, h3, h4⟩ := C68_type3_exact std hC hw.toSuits17c mem
  refine ⟨x, y, h1, h3, ?_⟩
  intro q k s d c hq hk hk' hs hlo hc hl hm hG
  have hm' := (ConjFound_iff hlo c).mpr hm
  have hG' : ∀ G : Coll, G.Nodup → (∀ r ∈ G, r ∈ C ∧ ConjFound C (completeTerms q) (lastTerm q) r.2 ∧ r.1 < d) → G.length < k :=
    fun G hn hGP => hG G hn (fun r hr => ⟨(hGP r hr).1, (ConjFound_iff hlo r.2).mp (hGP r hr).2.1, (hGP r hr).2.2⟩)
  obtain ⟨E, b, _, h5⟩ := (h4 q k s hq hk hk' hs).2
  have hmem : (d, c) ∈ E := (best_mem b (d, c)).mpr ⟨hc, hm', hG'⟩
  exact ⟨(h2 q k s hq hk hk' hs).2.1 ⟨d, c, b.examined hmem, hl⟩, h5 ⟨_, hmem, hl⟩⟩

/-- With type 2 also a completion that does not match leads to this: it is enough that a lost completion has all the complete terms of the query
that the collection has, one at least, and that fewer than `k` matching completions have smaller ids. -/
theorem C68_fault2 (std : StdLib) {C : Coll} (hC : ValidColl C) (hw : Suits17d C) (mem : Nat → W) :
    ∃ x, Index2.build (Pre.run C) mem = .ok x ∧ ∀ q k s d c, IsText q → 1 ≤ k → k ≤ MAX_K → Scratch.WF s →
      LastOk C (lastTerm q) → (d, c) ∈ C → LastCompletion C 16 c → (∃ t ∈ completeTerms q, IsTerm C t) → (∀ t ∈ completeTerms q, IsTerm C t → t ∈ c) →
      (∃ y, IsTerm C y ∧ lastTerm q <+: y) →
      (∀ G : Coll, G.Nodup → (∀ r ∈ G, r ∈ C ∧ ConjMatch C (completeTerms q) (lastTerm q) r.2 ∧ r.1 < d) → G.length < k) →
      x.conjTopk std q k s = .error .oob := by
  obtain ⟨x, h1, h2⟩ := C68_type2_exact std hC hw mem
  refine ⟨x, h1, ?_⟩
  intro q k s d c hq hk hk' hs hlo hc hl hkn hall ⟨y, hy, hp⟩ hG
  exact (h2 q k s hq hk hk' hs).2.1 ⟨d, c, ⟨hc, ⟨y, hy, hp, fun hf => hlo y hf hp⟩, hall, Or.inl hkn,
    fun G hn hGP => hG G hn (fun r hr => ⟨(hGP r hr).1, (ConjFound_iff hlo r.2).mp (hGP r hr).2.1, (hGP r hr).2.2⟩)⟩, hl⟩

/-! ## What remains -/

/-- **C68**, what is left of it: with types 2 and 3 (with type 4 prefix search is the same), prefix search answers as with other numbers of completions
when no completion that matches is lost; so does conjunctive search, with type 2 when no completion that has the complete terms is lost. Missing: all
other queries (`C68_false2`, `C68_false3`, `C68_fault`, `C68_fault2`). -/
theorem C68_partial (std : StdLib) {C : Coll} (hC : ValidColl C) (hw : Suits17d C) (mem : Nat → W) :
    ∃ x y, Index2.build (Pre.run C) mem = .ok x ∧ Index3.build (Pre.run C) mem = .ok y ∧ y.toBase = x.toBase ∧
      ∀ q k s, IsText q → 1 ≤ k → k ≤ MAX_K → Scratch.WF s → LastOk C (lastTerm q) →
      (∀ r ∈ C, k * (joined r.2).length + 2 * MAX_CHARS ≤ POOL_SIZE) →
      ((∀ c, IsFirstCompletion C c → ¬ PrefixMatch (completeTerms q) (lastTerm q) c) →
        (∀ r ∈ C, PrefixMatch (completeTerms q) (lastTerm q) r.2 → ¬ LastCompletion C 16 r.2) →
        ∃ s' res, x.toBase.prefixTopk std q k s = .ok s' ∧ s'.WF ∧ s'.pool.results = .ok res ∧
          Answer C (PrefixMatch (completeTerms q) (lastTerm q)) k res) ∧
      ((∀ r ∈ C, (∀ t ∈ completeTerms q, IsTerm C t → t ∈ r.2) → ¬ LastCompletion C 16 r.2) →
        ∃ s' res, x.conjTopk std q k s = .ok s' ∧ s'.WF ∧ s'.pool.results = .ok res ∧
          Answer C (ConjMatch C (completeTerms q) (lastTerm q)) k res) ∧
      ((∀ r ∈ C, ConjMatch C (completeTerms q) (lastTerm q) r.2 → ¬ LastCompletion C 16 r.2) →
        ∃ s' res, y.conjTopk std q k s = .ok s' ∧ s'.WF ∧ s'.pool.results = .ok res ∧
          Answer C (ConjMatch C (completeTerms q) (lastTerm q)) k res) := by
  obtain ⟨x, h1, h2⟩ := C68_type2_exact std hC hw mem
  obtain ⟨y, h3, h4⟩ := C68_type3_exact std hC hw.toSuits17c mem
  refine ⟨x, y, h1, h3, ?_, ?_⟩
  · have e1 : Base.build (Pre.run C) mem = .ok x.toBase := by
      unfold Index2.build at h1
      obtain ⟨_, _, h1⟩ := bind_ok h1
      obtain ⟨b, e, h1⟩ := bind_ok h1
      obtain ⟨_, _, h1⟩ := bind_ok h1
      obtain ⟨_, _, h1⟩ := bind_ok h1
      cases h1
      exact e
    have e2 : Base.build (Pre.run C) mem = .ok y.toBase := by
      unfold Index3.build at h3
      obtain ⟨_, _, h3⟩ := bind_ok h3
      obtain ⟨b, e, h3⟩ := bind_ok h3
      obtain ⟨_, _, h3⟩ := bind_ok h3
      cases h3
      exact e
    rw [e1] at e2
    exact (Except.ok.inj e2).symm
  · intro q k s hq hk hk' hs hlo hroom
    refine ⟨fun hf hno => ?_, fun hno => ?_, fun hno => ?_⟩
    · refine ((h2 q k s hq hk hk' hs).1.congr (fun r hr => ?_)).answer (room_of hk hroom)
      unfold PrefixKeptC PrefixFound2
      rw [PrefixFound_iff hlo]
      exact ⟨fun h => h.1.1, fun h => ⟨⟨h, fun hc => absurd h (hf r.2 hc)⟩, hno r hr h⟩⟩
    · refine (((h2 q k s hq hk hk' hs).2.2 ?_).congr (fun r _ => ConjFound_iff hlo r.2)).answer (room_of hk hroom)
      rintro ⟨d, c, he, hl⟩
      exact hno _ he.1 he.2.2.1 hl
    · obtain ⟨E, b, h5, _⟩ := (h4 q k s hq hk hk' hs).2
      have o1 : Outcome C (Pre.run C).terms (ConjFound C (completeTerms q) (lastTerm q)) k (y.conjTopk std q k s) :=
        ⟨E, b, h5 (fun r hr => hno r (b.sound r hr).1 ((ConjFound_iff hlo r.2).mp (b.sound r hr).2))⟩
      exact (o1.congr (fun r _ => ConjFound_iff hlo r.2)).answer (room_of hk hroom)

/-! ## A collection -/

/-- 34 completions with the terms "a", "ab", "b", "c", "d", "e", with document ids from 34 down to 1: "a a", "a ab", "a b", …, "a e", then "b", "b a",
…, "e e", and "e e a", …, "e e d". The last 16, from "d a", are lost. -/
def collC34 : Coll :=
  let terms : List (List Str) := [[97], [97]] :: [[97], [97, 98]] :: (List.range 4).map (fun i => [[97], [98 + i]]) ++
    (List.range 4).flatMap (fun i => [[98 + i]] :: (List.range 5).map (fun j => [[98 + i], [97 + j]])) ++
    (List.range 4).map (fun i => [[101], [101], [97 + i]])
  terms.mapIdx (fun i c => (34 - i, c))

theorem collC34_valid : ValidColl collC34 :=
  ⟨by decide, by decide +kernel, by decide +kernel, by decide +kernel, by decide +kernel, by decide +kernel, by decide +kernel, by decide +kernel,
    by decide +kernel, by decide +kernel⟩

theorem collC34_last {i : Nat} (hi : i < collC34.length) : LastCompletion collC34 16 collC34[i].2 ↔ 18 ≤ i := by
  have h : collC34.length = 34 := by decide +kernel
  have := collC34_valid.ready.lastCompletion (by omega) hi
  rw [h] at this
  exact this

theorem collC34_suits : Suits17d collC34 :=
  { terms := ⟨_, collC34_valid.ready.numTerms, by decide +kernel⟩
    count := by decide +kernel
    doc := by
      refine ⟨collC34[0]'(by decide +kernel), List.getElem_mem _, by decide +kernel, ?_⟩
      rw [collC34_last]
      omega
    doc0 := ⟨[97], ⟨(34, [[97], [97]]), by decide +kernel, by decide⟩, by
      have : ∀ r ∈ collC34, r.1 ≠ 0 := by decide +kernel
      intro c hc
      exact absurd rfl (this _ hc)⟩ }

theorem collC34_lost {r : Nat × List Str} (hr : r ∈ collC34) : LastCompletion collC34 16 r.2 ↔ r.1 ≤ 16 := by
  obtain ⟨i, hi, rfl⟩ := List.getElem_of_mem hr
  rw [collC34_last hi]
  have h : collC34.length = 34 := by decide +kernel
  have hid : ∀ i (hi : i < collC34.length), collC34[i].1 = 34 - i := by decide +kernel
  rw [hid i hi]
  omega

/-- "d a" is lost (`C68_false2` and the others): it has the complete term of the query "a b", which it does not match, and no matching completion has a
smaller id (`C68_fault2`); it matches the query "d a" (`C68_fault`) -/
example : (15, [[100], [97]]) ∈ collC34 ∧ Lost collC34 15 ∧ LastOk collC34 [98] ∧ [97] ∈ [[100], [97]] ∧ ¬ ConjMatch collC34 [[97]] [98] [[100], [97]] ∧
    (∀ G : Coll, G.Nodup → (∀ r ∈ G, r ∈ collC34 ∧ ConjMatch collC34 [[97]] [98] r.2 ∧ r.1 < 15) → G.length < 1) ∧
    ConjMatch collC34 [[100]] [97] [[100], [97]] ∧
    completeTerms [97, 32, 98] = [[97]] ∧ lastTerm [97, 32, 98] = [98] ∧ completeTerms [100, 32, 97] = [[100]] ∧ lastTerm [100, 32, 97] = [97] := by
  have hm : (15, [[100], [97]]) ∈ collC34 := by decide +kernel
  have hT : IsTerm collC34 [97] := ⟨_, hm, by decide⟩
  refine ⟨hm, ⟨_, hm, (collC34_lost hm).mpr (by decide)⟩, lastOk_of collC34_valid (by decide +kernel), by decide, ?_, ?_, ?_, by decide, by decide, by decide, by decide⟩
  · rintro ⟨_, x, hx, hp⟩
    simp only [List.mem_cons, List.not_mem_nil, or_false] at hx
    rcases hx with rfl | rfl <;> revert hp <;> decide
  · have h0 : ∀ r ∈ collC34, r.1 < 15 → [97] ∈ r.2 → ∀ x ∈ r.2, [98] <+: x → False := by decide +kernel
    intro G _ hG
    cases G with
    | nil => simp
    | cons r G =>
        obtain ⟨h1, ⟨h2, x, hx, hp⟩, h3⟩ := hG r (by simp)
        exact (h0 r h1 h3 (h2 [97] (by simp) hT) x hx hp).elim
  · exact ⟨by simp, [97], by decide, by decide⟩

/-- the hypotheses of `C68_partial`: of prefix search with "b a", of conjunctive search with type 2 with "ab ab", and with type 3 with "a b", for which type 2 reads out of bounds -/
example : (∀ r ∈ collC34, 15 * (joined r.2).length + 2 * MAX_CHARS ≤ POOL_SIZE) ∧
    (LastOk collC34 [98] ∧ (∀ r ∈ collC34, ConjMatch collC34 [[97]] [98] r.2 → ¬ LastCompletion collC34 16 r.2) ∧ ConjMatch collC34 [[97]] [98] [[98], [97]]) ∧
    (LastOk collC34 [97] ∧ (∀ c, IsFirstCompletion collC34 c → ¬ PrefixMatch [[98]] [97] c) ∧ (∀ r ∈ collC34, PrefixMatch [[98]] [97] r.2 → ¬ LastCompletion collC34 16 r.2) ∧
      PrefixMatch [[98]] [97] [[98], [97]]) ∧
    (LastOk collC34 [97, 98] ∧ (∀ r ∈ collC34, (∀ t ∈ [[97, 98]], IsTerm collC34 t → t ∈ r.2) → ¬ LastCompletion collC34 16 r.2) ∧
      ConjMatch collC34 [[97, 98]] [97, 98] [[97], [97, 98]]) := by
  have hT : IsTerm collC34 [97] := ⟨(34, [[97], [97]]), by decide +kernel, by decide⟩
  have hT' : IsTerm collC34 [97, 98] := ⟨(33, [[97], [97, 98]]), by decide +kernel, by decide⟩
  have a1 : ∀ r ∈ collC34, [97] ∈ r.2 → (∃ x ∈ r.2, [98] <+: x) → ¬ r.1 ≤ 16 := by decide +kernel
  have a2 : ∀ r ∈ collC34, r.2.head? = some [98] → ¬ r.1 ≤ 16 := by decide +kernel
  have a3 : ∀ r ∈ collC34, [97, 98] ∈ r.2 → ¬ r.1 ≤ 16 := by decide +kernel
  have a4 : collC34.head? = some (34, [[97], [97]]) := by decide +kernel
  refine ⟨by decide +kernel, ⟨lastOk_of collC34_valid (by decide +kernel), ?_, by simp, [98], by decide, by decide⟩,
    ⟨lastOk_of collC34_valid (by decide +kernel), ?_, ?_, [97], by decide, by decide⟩,
    ⟨lastOk_of collC34_valid (by decide +kernel), ?_, by simp, [97, 98], by decide, by decide⟩⟩
  · rintro r hr ⟨h0, h1⟩
    rw [collC34_lost hr]
    exact a1 r hr (h0 _ (by simp) hT) h1
  · rintro c ⟨d, hd⟩ ⟨x, _, hp⟩
    rw [a4] at hd
    cases hd
    revert hp
    simp
  · rintro r hr ⟨x, _, hp⟩
    rw [collC34_lost hr]
    refine a2 r hr ?_
    obtain ⟨t, ht⟩ := hp
    rw [← ht]
    rfl
  · rintro r hr h0
    rw [collC34_lost hr]
    exact a3 r hr (h0 _ (by simp) hT')

end AC.Props
