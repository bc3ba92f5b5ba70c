import Verif.Proofs.Removal
import Verif.Props.Typing
import Verif.Props.Filtered
/-!
# C94: removing completions from the collection
-/
namespace AC.Props
open AC Spec

section
variable {C D : Coll} {run run' : StdLib → Ask → Scratch → M Scratch}

theorem staysAhead (hC : ValidColl C) (hD : ∀ r ∈ D, r ∈ C) {P Q : List Str → Prop} {k : Nat} {E E' : Coll} (b : Spec.Best C P k E) (b' : Spec.Best D Q k E')
    (hPQ : ∀ r ∈ D, P r.2 → Q r.2) (hQP : (∃ r ∈ E, r ∈ D) → ∀ r ∈ D, Q r.2 → P r.2) : StaysAhead D (E.map shown) (E'.map shown) := by
  refine ⟨?_, fun hne hall => ?_⟩
  · rw [remaining_shown hC hD (fun r hr => (b.sound r hr).1)]
    obtain ⟨t, ht⟩ := b.removal b' hD hPQ hQP
    exact ⟨t.map shown, by rw [← ht, List.map_append]⟩
  · rw [b.removal_same b' hD hPQ hQP (fun h => hne (by rw [h]; rfl)) ?_]
    intro r hr
    obtain ⟨c, hc⟩ := hall _ (List.mem_map.mpr ⟨r, hr, rfl⟩)
    have : c = r.2 := hC.ready.unique (d := r.1) (hD _ hc) (b.sound r hr).1
    rw [this] at hc
    exact hc

/-- **C94**, types 1, 2 and 3 (also when the two indexes are of different types), conjunctive search. Missing from the claim: queries that end with a strict beginning of the
first term of one of the collections (`C94_false`). -/
theorem C94_conj_partial (hC : ValidColl C) (hDv : ValidColl D) (hD : ∀ r ∈ D, r ∈ C) (hi : IsIndex C run) (hi' : IsIndex D run') (std std' : StdLib) (q : Str) (k : Nat)
    (ha : Ask.Ok ⟨true, q, k⟩) (hl : LastOk C (lastTerm q)) (hl' : LastOk D (lastTerm q)) {s s' t t' : Scratch} {res res' : List (Nat × Str)} (hs : Visited run s)
    (hs' : Visited run' s') (h1 : run std ⟨true, q, k⟩ s = .ok t) (h2 : t.pool.results = .ok res) (h3 : run' std' ⟨true, q, k⟩ s' = .ok t')
    (h4 : t'.pool.results = .ok res') : StaysAhead D res res' := by
  obtain ⟨_, _, h⟩ := hi.serves hC
  obtain ⟨_, _, h'⟩ := hi'.serves hDv
  obtain ⟨E, b, e1, _⟩ := (h std _ s ha (hs.wf h)).cases h1
  obtain ⟨E', b', e1', _⟩ := (h' std' _ s' ha (hs'.wf h')).cases h3
  rw [h2] at e1
  rw [h4] at e1'
  cases e1
  cases e1'
  refine staysAhead hC hD b b' ?_ ?_
  · intro r _ hp
    obtain ⟨g1, g2⟩ := (ConjFound_iff hl r.2).mp hp
    exact (ConjFound_iff hl' r.2).mpr ⟨fun t ht ⟨r', hr', ht'⟩ => g1 t ht ⟨r', hD r' hr', ht'⟩, g2⟩
  · rintro ⟨f, hf, hfD⟩ r _ hp
    obtain ⟨f1, _⟩ := (ConjFound_iff hl f.2).mp (b.sound f hf).2
    obtain ⟨g1, g2⟩ := (ConjFound_iff hl' r.2).mp hp
    exact (ConjFound_iff hl r.2).mpr ⟨fun t ht ht' => g1 t ht ⟨f, hfD, f1 t ht ht'⟩, g2⟩

/-- **C94**, type 1, prefix search. Missing from the claim: queries that end with a strict beginning of the first term of one of the collections (`C94_false`). -/
theorem C94_type1_partial (hC : ValidColl C) (hDv : ValidColl D) (hD : ∀ r ∈ D, r ∈ C) (hw : Suits1 C) (hw' : Suits1 D) {mem mem' : Nat → W} {x x' : Index1}
    (hb : Index1.build (Pre.run C) mem = .ok x) (hb' : Index1.build (Pre.run D) mem' = .ok x') (std std' : StdLib) (q : Str) (k : Nat)
    (ha : Ask.Ok ⟨false, q, k⟩) (hl : LastOk C (lastTerm q)) (hl' : LastOk D (lastTerm q)) {s s' t t' : Scratch} {res res' : List (Nat × Str)} (hs : Visited x.ask s)
    (hs' : Visited x'.ask s') (h1 : x.ask std ⟨false, q, k⟩ s = .ok t) (h2 : t.pool.results = .ok res) (h3 : x'.ask std' ⟨false, q, k⟩ s' = .ok t')
    (h4 : t'.pool.results = .ok res') : StaysAhead D res res' := by
  have h := Index1.serves hC (Index1.rep_of_build hC hw hb)
  have h' := Index1.serves hDv (Index1.rep_of_build hDv hw' hb')
  obtain ⟨E, b, e1, _⟩ := (h std _ s ha (hs.wf h)).cases h1
  obtain ⟨E', b', e1', _⟩ := (h' std' _ s' ha (hs'.wf h')).cases h3
  rw [h2] at e1
  rw [h4] at e1'
  cases e1
  cases e1'
  exact staysAhead hC hD b b' (fun r _ hp => (PrefixFound_iff hl' r.2).mpr ((PrefixFound_iff hl r.2).mp hp))
    (fun _ r _ hp => (PrefixFound_iff hl r.2).mpr ((PrefixFound_iff hl' r.2).mp hp))

/-- the first completion does not match a query -/
def FirstApart (C : Coll) (q : Str) : Prop := ∀ c, IsFirstCompletion C c → ¬ PrefixMatch (completeTerms q) (lastTerm q) c

theorem prefixFound2_iff {q : Str} (hl : LastOk C (lastTerm q)) (hf : FirstApart C q) (c : List Str) :
    PrefixFound2 C (completeTerms q) (lastTerm q) c ↔ PrefixMatch (completeTerms q) (lastTerm q) c := by
  constructor
  · intro h
    exact (PrefixFound_iff hl c).mp h.1
  · intro h
    exact ⟨(PrefixFound_iff hl c).mpr h, fun hc => absurd h (hf c hc)⟩

theorem pre_iff {q : Str} (hl : LastOk C (lastTerm q)) (hf : FirstApart C q) {pre : List Str → Str → List Str → Prop} (hp : pre = PrefixFound C ∨ pre = PrefixFound2 C) (k : Nat)
    (c : List Str) : foundBy C pre ⟨false, q, k⟩ c ↔ PrefixMatch (completeTerms q) (lastTerm q) c := by
  rcases hp with rfl | rfl
  · exact PrefixFound_iff hl c
  · exact prefixFound2_iff hl hf c

/-- **C94**, types 1, 2 and 3 (also when the two indexes are of different types), prefix search. Missing from the claim: queries that end with a strict beginning of the first
term of one of the collections (`C94_false`), or that the first completion of one of them matches (`C94_false_first`). -/
theorem C94_prefix_partial (hC : ValidColl C) (hDv : ValidColl D) (hD : ∀ r ∈ D, r ∈ C) (hi : IsIndex C run) (hi' : IsIndex D run') (std std' : StdLib) (q : Str) (k : Nat)
    (ha : Ask.Ok ⟨false, q, k⟩) (hl : LastOk C (lastTerm q)) (hl' : LastOk D (lastTerm q)) (hf : FirstApart C q) (hf' : FirstApart D q) {s s' t t' : Scratch}
    {res res' : List (Nat × Str)} (hs : Visited run s) (hs' : Visited run' s') (h1 : run std ⟨false, q, k⟩ s = .ok t) (h2 : t.pool.results = .ok res)
    (h3 : run' std' ⟨false, q, k⟩ s' = .ok t') (h4 : t'.pool.results = .ok res') : StaysAhead D res res' := by
  obtain ⟨_, hp, h⟩ := hi.serves hC
  obtain ⟨_, hp', h'⟩ := hi'.serves hDv
  obtain ⟨E, b, e1, _⟩ := (h std _ s ha (hs.wf h)).cases h1
  obtain ⟨E', b', e1', _⟩ := (h' std' _ s' ha (hs'.wf h')).cases h3
  rw [h2] at e1
  rw [h4] at e1'
  cases e1
  cases e1'
  exact staysAhead hC hD b b' (fun r _ hr => (pre_iff hl' hf' hp' k r.2).mpr ((pre_iff hl hf hp k r.2).mp hr))
    (fun _ r _ hr => (pre_iff hl hf hp k r.2).mpr ((pre_iff hl' hf' hp' k r.2).mp hr))

/-- **C94**, type 4, prefix search, like types 2 and 3 (the block sizes may be different). Missing from the claim: conjunctive search, and what is missing with types 2 and 3. -/
theorem C94_type4_partial (hC : ValidColl C) (hDv : ValidColl D) (hD : ∀ r ∈ D, r ∈ C) (hw : Suits4 C) (hw' : Suits4 D) {std₀ std₀' : StdLib} {m m' : Nat} {mem mem' : Nat → W}
    {x x' : Index4} (hb : Index4.build std₀ m (Pre.run C) mem = .ok x) (hb' : Index4.build std₀' m' (Pre.run D) mem' = .ok x') (std std' : StdLib) (q : Str) (k : Nat)
    (ha : Ask.Ok ⟨false, q, k⟩) (hl : LastOk C (lastTerm q)) (hl' : LastOk D (lastTerm q)) (hf : FirstApart C q) (hf' : FirstApart D q) {s s' t t' : Scratch}
    {res res' : List (Nat × Str)} (hs : Visited x.ask s) (hs' : Visited x'.ask s') (h1 : x.ask std ⟨false, q, k⟩ s = .ok t) (h2 : t.pool.results = .ok res)
    (h3 : x'.ask std' ⟨false, q, k⟩ s' = .ok t') (h4 : t'.pool.results = .ok res') : StaysAhead D res res' := by
  obtain ⟨_, hx⟩ := Index4.rep_of_build hC hw.toSuits3 hb
  obtain ⟨_, hx'⟩ := Index4.rep_of_build hDv hw'.toSuits3 hb'
  obtain ⟨E, b, e1, _⟩ := (Base.prefix_spec std hC.ready hx.base hx.dict hx.built ha.1 ha.2.1 ha.2.2 (type4_wf hC hw hb hs)).cases h1
  obtain ⟨E', b', e1', _⟩ := (Base.prefix_spec std' hDv.ready hx'.base hx'.dict hx'.built ha.1 ha.2.1 ha.2.2 (type4_wf hDv hw' hb' hs')).cases h3
  rw [h2] at e1
  rw [h4] at e1'
  cases e1
  cases e1'
  exact staysAhead hC hD b b' (fun r _ hr => (prefixFound2_iff hl' hf' r.2).mpr ((prefixFound2_iff hl hf r.2).mp hr))
    (fun _ r _ hr => (prefixFound2_iff hl hf r.2).mpr ((prefixFound2_iff hl' hf' r.2).mp hr))

/-- a query that conjunctive search of type 4 answers completely: the terms that complete the last one lie in one block, and there are no complete terms, or no match is the first
document of a block with all of them -/
def Complete4 (C : Coll) (B : List (List Str)) (q : Str) : Prop :=
  (∃ b ∈ B, ∀ x, IsTerm C x → lastTerm q <+: x → x ∈ b) ∧
    ((∀ t ∈ completeTerms q, ¬ IsTerm C t) ∨ ∀ r ∈ C, ConjMatch C (completeTerms q) (lastTerm q) r.2 → ¬ Skipped C B (completeTerms q) r)

/-- **C94**, type 4, conjunctive search (the block sizes may be different). Missing from the claim: besides what is missing for the other types, queries that type 4 does not answer
completely (C06). -/
theorem C94_conj4_partial (hC : ValidColl C) (hDv : ValidColl D) (hD : ∀ r ∈ D, r ∈ C) (hw : Suits4 C) (hw' : Suits4 D) {std₀ std₀' : StdLib} {m m' : Nat} {mem mem' : Nat → W}
    {x x' : Index4} (hb : Index4.build std₀ m (Pre.run C) mem = .ok x) (hb' : Index4.build std₀' m' (Pre.run D) mem' = .ok x') {B B' : List (List Str)} (hB : IsBlocks C m B)
    (hB' : IsBlocks D m' B') (std std' : StdLib) (q : Str) (k : Nat) (ha : Ask.Ok ⟨true, q, k⟩) (hl : LastOk C (lastTerm q)) (hl' : LastOk D (lastTerm q))
    (hq : Complete4 C B q) (hq' : Complete4 D B' q) {s s' t t' : Scratch}
    {res res' : List (Nat × Str)} (hs : Visited x.ask s) (hs' : Visited x'.ask s') (h1 : x.ask std ⟨true, q, k⟩ s = .ok t) (h2 : t.pool.results = .ok res)
    (h3 : x'.ask std' ⟨true, q, k⟩ s' = .ok t') (h4 : t'.pool.results = .ok res') : StaysAhead D res res' := by
  obtain ⟨_, hx⟩ := Index4.rep_of_build hC hw.toSuits3 hb
  obtain ⟨_, hx'⟩ := Index4.rep_of_build hDv hw'.toSuits3 hb'
  obtain ⟨S, r1, r2⟩ := Index4.conj_spec hC.ready std hx hw.ids ha.1
  obtain ⟨S', r1', r2'⟩ := Index4.conj_spec hDv.ready std' hx' hw'.ids ha.1
  rw [C06_blocks_unique (hC.ready.blocks hx.inverted.cut) hB] at r1
  rw [C06_blocks_unique (hDv.ready.blocks hx'.inverted.cut) hB'] at r1'
  have e := (r2 q ha.1 rfl (fun _ => Iff.rfl) k ha.2.1 ha.2.2 s (type4_wf hC hw hb hs)).results h1 h2
  have e' := (r2' q ha.1 rfl (fun _ => Iff.rfl) k ha.2.1 ha.2.2 s' (type4_wf hDv hw' hb' hs')).results h3 h4
  subst e e'
  have b := r1.best hC hB hl hq.1 hq.2 k
  have b' := r1'.best hDv hB' hl' hq'.1 hq'.2 k
  refine staysAhead hC hD b b' ?_ ?_
  · rintro r _ ⟨g1, g2⟩
    exact ⟨fun t ht ⟨r', hr', ht'⟩ => g1 t ht ⟨r', hD r' hr', ht'⟩, g2⟩
  · rintro ⟨f, hf, hfD⟩ r _ ⟨g1, g2⟩
    exact ⟨fun t ht ht' => g1 t ht ⟨f, hfD, (b.sound f hf).2.1 t ht ht'⟩, g2⟩

/-- the best completion is shown when it is found -/
theorem shown_of_min {P : List Str → Prop} {k : Nat} {E : Coll} (b : Spec.Best C P k E) (hk : 1 ≤ k) {r : Nat × List Str} (hr : r ∈ C) (hp : P r.2) (hmin : ∀ r' ∈ C, r.1 ≤ r'.1) :
    shown r ∈ E.map shown := by
  refine List.mem_map.mpr ⟨r, ?_, rfl⟩
  apply Classical.byContradiction
  intro hn
  obtain ⟨h1, h2⟩ := b.complete r hr hp hn
  cases E with
  | nil => simp at h1; omega
  | cons e E =>
      have g1 := h2 e (by simp)
      have g2 := hmin e (b.sound e (by simp)).1
      omega

theorem not_shown (hC : ValidColl C) {P : List Str → Prop} {k : Nat} {E : Coll} (b : Spec.Best C P k E) {r : Nat × List Str} (hr : r ∈ C) (hp : ¬ P r.2) : r.1 ∉ (E.map shown).map (·.1) := by
  intro hm
  obtain ⟨e, he, hd⟩ := List.mem_map.mp hm
  obtain ⟨f, hf, rfl⟩ := List.mem_map.mp he
  obtain ⟨g1, g2⟩ := b.sound f hf
  have : f.2 = r.2 := hC.ready.unique (d := r.1) (by rw [← hd]; exact g1) hr
  exact hp (this ▸ g2)

/-- **C94 is false**: the best completion is a single term, which is shown for a strict beginning of it. After the removal of other completions, which leaves this term as the first
one of the dictionary, it is not shown any more, with both searches. -/
theorem C94_false (hC : ValidColl C) (hDv : ValidColl D) (hi : IsIndex C run) (hi' : IsIndex D run') (std std' : StdLib) (cj : Bool) (q : Str) (k : Nat)
    (ha : Ask.Ok ⟨cj, q, k⟩) {u : Str} {d : Nat} (hu : IsFirstTerm D u) (hc : (d, [u]) ∈ C) (hd : (d, [u]) ∈ D) (hmin : ∀ r ∈ C, d ≤ r.1) (hhead : C.head? ≠ some (d, [u]))
    (hsp : space ∉ q) (hne : q ≠ []) (hqu : q <+: u) (hnu : q ≠ u) (hl : LastOk C q) {s s' t t' : Scratch} {res res' : List (Nat × Str)} (hs : Visited run s)
    (hs' : Visited run' s') (h1 : run std ⟨cj, q, k⟩ s = .ok t) (h2 : t.pool.results = .ok res) (h3 : run' std' ⟨cj, q, k⟩ s' = .ok t')
    (h4 : t'.pool.results = .ok res') : (d, u) ∈ res ∧ d ∉ res'.map (·.1) := by
  obtain ⟨pre, hp, h⟩ := hi.serves hC
  obtain ⟨pre', hp', h'⟩ := hi'.serves hDv
  obtain ⟨E, b, e1, _⟩ := (h std _ s ha (hs.wf h)).cases h1
  obtain ⟨E', b', e1', _⟩ := (h' std' _ s' ha (hs'.wf h')).cases h3
  rw [h2] at e1
  rw [h4] at e1'
  cases e1
  cases e1'
  have hr : Reaches C q u := ⟨hqu, fun hf => hl u hf hqu⟩
  have hnr : ¬ Reaches D q u := fun hr' => by
    rcases hr'.2 hu with e | e
    · exact hne e
    · exact hnu e
  constructor
  · refine shown_of_min b ha.2.1 (r := (d, [u])) hc ?_ hmin
    unfold foundBy
    dsimp only
    rw [completeTerms_word hsp, lastTerm_word hsp]
    have hpf : PrefixFound C [] q [u] := ⟨u, hr, by simp⟩
    split
    · exact ⟨fun _ ht => absurd ht (by simp), u, by simp, hr⟩
    · rcases hp with rfl | rfl
      · exact hpf
      · exact ⟨hpf, fun hf => absurd (first_doc hC hc hf) hhead⟩
  · refine not_shown hDv b' (r := (d, [u])) hd ?_
    unfold foundBy
    dsimp only
    rw [completeTerms_word hsp, lastTerm_word hsp]
    have hnp : ¬ PrefixFound D [] q [u] := by
      rintro ⟨y, hy, hy2⟩
      rw [List.nil_append, List.cons_prefix_cons] at hy2
      rw [hy2.1] at hy
      exact hnr hy
    split
    · rintro ⟨_, y, hy, hy2⟩
      rw [List.mem_singleton.mp hy] at hy2
      exact hnr hy2
    · rcases hp' with rfl | rfl
      · exact hnp
      · exact fun hq => hnp hq.1

/-- **C94 is false**, types 2 and 3, prefix search: the best completion matches a query of less terms. After the removal of other completions, which leaves it as the first one of the
collection, it is not shown any more. -/
theorem C94_false_first (hC : ValidColl C) (hDv : ValidColl D) (hi : IsIndex C run)
    (hb : (∃ mem x, Suits2 D ∧ Index2.build (Pre.run D) mem = .ok x ∧ run' = x.ask) ∨ (∃ mem x, Suits3 D ∧ Index3.build (Pre.run D) mem = .ok x ∧ run' = x.ask))
    (std std' : StdLib) (q : Str) (k : Nat) (ha : Ask.Ok ⟨false, q, k⟩) {c : List Str} {d : Nat} (hc : (d, c) ∈ C) (hmin : ∀ r ∈ C, d ≤ r.1) (hhead : C.head? ≠ some (d, c))
    (hhead' : D.head? = some (d, c)) (hl : LastOk C (lastTerm q)) (hm : PrefixMatch (completeTerms q) (lastTerm q) c) (hlen : (completeTerms q).length + 1 < c.length)
    {s s' t t' : Scratch} {res res' : List (Nat × Str)} (hs : Visited run s)
    (hs' : Visited run' s') (h1 : run std ⟨false, q, k⟩ s = .ok t) (h2 : t.pool.results = .ok res) (h3 : run' std' ⟨false, q, k⟩ s' = .ok t')
    (h4 : t'.pool.results = .ok res') : (d, joined c) ∈ res ∧ d ∉ res'.map (·.1) := by
  obtain ⟨pre, hp, h⟩ := hi.serves hC
  have h' : Serves D (PrefixFound2 D) run' := by
    rcases hb with ⟨mem, x, g1, g2, rfl⟩ | ⟨mem, x, g1, g2, rfl⟩
    · exact Index2.serves hDv (Index2.rep_of_build hDv g1 g2)
    · exact Index3.serves hDv (Index3.rep_of_build hDv g1 g2)
  obtain ⟨E, b, e1, _⟩ := (h std _ s ha (hs.wf h)).cases h1
  obtain ⟨E', b', e1', _⟩ := (h' std' _ s' ha (hs'.wf h')).cases h3
  rw [h2] at e1
  rw [h4] at e1'
  cases e1
  cases e1'
  constructor
  · refine shown_of_min b ha.2.1 (r := (d, c)) hc ?_ hmin
    show pre (completeTerms q) (lastTerm q) c
    rcases hp with rfl | rfl
    · exact (PrefixFound_iff hl c).mpr hm
    · exact ⟨(PrefixFound_iff hl c).mpr hm, fun hf => absurd (first_doc hC hc hf) hhead⟩
  · refine not_shown hDv b' (r := (d, c)) (List.mem_of_mem_head? hhead') ?_
    intro hq
    obtain ⟨z, _, hz⟩ := (show PrefixFound2 D (completeTerms q) (lastTerm q) c from hq).2 ⟨d, hhead'⟩
    rw [hz] at hlen
    simp at hlen

end

/-- a part of a valid collection is valid -/
theorem C94_valid {C : Coll} (hC : ValidColl C) (p : Nat × List Str → Bool) (hne : C.filter p ≠ []) : ValidColl (C.filter p) := hC.sublist List.filter_sublist hne

/-! ## Examples -/

/-- the sample without "ab b" -/
def sampleLess : Coll := sampleColl.filter (fun r => r.1 != 4)

theorem sampleLess_valid : ValidColl sampleLess := C94_valid sampleColl_valid _ (by decide)

theorem sampleLess_suits : Suits2 sampleLess :=
  { terms := ⟨_, sampleLess_valid.ready.numTerms, by decide +kernel⟩
    doc0 := ⟨[97, 98], ⟨(2, [[97, 98], [99]]), by decide, by decide⟩, by
      have : ∀ r ∈ sampleLess, r.1 = 0 → [97, 98] ∉ r.2 := by decide
      exact fun c hc => this _ hc rfl⟩
    count := by decide }

theorem firstApart_of {C : Coll} {q : Str} {d : Nat} {c : List Str} (h : C.head? = some (d, c)) (hn : completeTerms q = []) (hp : ∀ t ∈ c.head?, ¬ lastTerm q <+: t) :
    FirstApart C q := by
  rintro c' ⟨d', h'⟩ ⟨x, hx, hx2⟩
  rw [h] at h'
  cases h'
  rw [hn] at hx2
  cases c with
  | nil => simp at hx2
  | cons t c =>
      rw [List.nil_append, List.cons_prefix_cons] at hx2
      rw [hx2.1] at hx
      exact hp t rfl hx

/-- the query "b" before and after the removal of "ab b", with all pairs of types from 1 to 3 -/
example (std : StdLib) {run run' : StdLib → Ask → Scratch → M Scratch} (hi : IsIndex sampleColl run) (hi' : IsIndex sampleLess run') (cj : Bool) : ∃ t res t' res',
    run std ⟨cj, [98], 3⟩ Scratch.fresh = .ok t ∧ t.pool.results = .ok res ∧ run' std ⟨cj, [98], 3⟩ Scratch.fresh = .ok t' ∧ t'.pool.results = .ok res' ∧ StaysAhead sampleLess res res' := by
  have ha : Ask.Ok ⟨cj, [98], 3⟩ := ⟨show IsText [98] by decide, show 1 ≤ 3 by decide, show 3 ≤ MAX_K by decide⟩
  obtain ⟨t, res, h1, h2⟩ := runs sampleColl_valid hi std _ ha (show 3 ≤ 8 by decide) .fresh
  obtain ⟨t', res', h3, h4⟩ := runs sampleLess_valid hi' std _ ha (show 3 ≤ 8 by decide) .fresh
  refine ⟨t, res, t', res', h1, h2, h3, h4, ?_⟩
  have hl : LastOk sampleColl (lastTerm [98]) := lastOk_of sampleColl_valid (by decide +kernel)
  have hl' : LastOk sampleLess (lastTerm [98]) := lastOk_of sampleLess_valid (by decide +kernel)
  cases cj with
  | true => exact C94_conj_partial sampleColl_valid sampleLess_valid (by decide) hi hi' std std [98] 3 ha hl hl' .fresh .fresh h1 h2 h3 h4
  | false =>
      exact C94_prefix_partial sampleColl_valid sampleLess_valid (by decide) hi hi' std std [98] 3 ha hl hl'
        (firstApart_of (d := 4) (c := [[97, 98], [98]]) rfl (by decide) (by decide))
        (firstApart_of (d := 2) (c := [[97, 98], [99]]) rfl (by decide) (by decide)) .fresh .fresh h1 h2 h3 h4

/-- there are such indexes, of type 2 and type 1 -/
example (mem : Nat → W) : (∃ x : Index2, IsIndex sampleColl x.ask) ∧ ∃ x : Index1, IsIndex sampleLess x.ask := by
  obtain ⟨x, h1, _⟩ := Index2.exists sampleColl_valid.ready sampleColl_suits mem
  obtain ⟨x', h1', _⟩ := Index1.exists sampleLess_valid.ready sampleLess_suits.toSuits1 mem
  exact ⟨⟨x, .type2 sampleColl_suits h1⟩, ⟨x', .type1 sampleLess_suits.toSuits1 h1'⟩⟩

theorem sampleLess_terms (t : Str) : IsTerm sampleLess t ↔ t ∈ [[97, 98], [98], [99]] := by
  have : sampleLess = [(2, [[97, 98], [99]]), (0, [[98]]), (7, [[98], [97, 98]]), (5, [[99], [98], [98]])] := by decide
  rw [this]
  simp only [IsTerm, List.mem_cons, List.not_mem_nil, or_false, exists_eq_or_imp, exists_eq_left]
  grind

/-- the same with type 4 and blocks of at least 100 postings, both searches -/
example (std : StdLib) (mem : Nat → W) (cj : Bool) : ∃ x x' : Index4, Index4.build std 100 (Pre.run sampleColl) mem = .ok x ∧ Index4.build std 100 (Pre.run sampleLess) mem = .ok x' ∧ ∃ t res t' res',
    x.ask std ⟨cj, [98], 3⟩ Scratch.fresh = .ok t ∧ t.pool.results = .ok res ∧ x'.ask std ⟨cj, [98], 3⟩ Scratch.fresh = .ok t' ∧ t'.pool.results = .ok res' ∧ StaysAhead sampleLess res res' := by
  have hw' : Suits4 sampleLess := ⟨sampleLess_suits.to3, by decide⟩
  obtain ⟨x, _, hb, _⟩ := Index4.exists sampleColl_valid.ready sampleColl_suits.to3 std 100 mem
  obtain ⟨x', _, hb', _⟩ := Index4.exists sampleLess_valid.ready sampleLess_suits.to3 std 100 mem
  have ha : Ask.Ok ⟨cj, [98], 3⟩ := ⟨show IsText [98] by decide, show 1 ≤ 3 by decide, show 3 ≤ MAX_K by decide⟩
  obtain ⟨t, h1⟩ := C36_type4_partial sampleColl_valid sampleColl_suits4 hb std _ ha (show 3 ≤ 8 by decide) .fresh
  obtain ⟨res, h2, _⟩ := C36_needed4 sampleColl_valid sampleColl_suits4 hb std _ ha .fresh h1
  obtain ⟨t', h3⟩ := C36_type4_partial sampleLess_valid hw' hb' std _ ha (show 3 ≤ 8 by decide) .fresh
  obtain ⟨res', h4, _⟩ := C36_needed4 sampleLess_valid hw' hb' std _ ha .fresh h3
  have hl : LastOk sampleColl (lastTerm [98]) := lastOk_of sampleColl_valid (by decide +kernel)
  have hl' : LastOk sampleLess (lastTerm [98]) := lastOk_of sampleLess_valid (by decide +kernel)
  refine ⟨x, x', hb, hb', t, res, t', res', h1, h2, h3, h4, ?_⟩
  cases cj with
  | true =>
      have hB' : IsBlocks sampleLess 100 [[[97, 98], [98], [99]]] := ⟨by decide, fun t => by rw [sampleLess_terms]; rfl, by decide, by decide, by decide⟩
      have hno : completeTerms [98] = [] := by decide
      exact C94_conj4_partial sampleColl_valid sampleLess_valid (by decide) sampleColl_suits4 hw' hb hb' sampleColl_blocks.2 hB' std std [98] 3 ha hl hl'
        ⟨⟨_, List.mem_singleton.mpr rfl, fun y hy _ => (sampleColl_terms y).mp hy⟩, .inl (by rw [hno]; simp)⟩
        ⟨⟨_, List.mem_singleton.mpr rfl, fun y hy _ => (sampleLess_terms y).mp hy⟩, .inl (by rw [hno]; simp)⟩ .fresh .fresh h1 h2 h3 h4
  | false =>
      exact C94_type4_partial sampleColl_valid sampleLess_valid (by decide) sampleColl_suits4 hw' hb hb' std std [98] 3 ha hl hl'
        (firstApart_of (d := 4) (c := [[97, 98], [98]]) rfl (by decide) (by decide))
        (firstApart_of (d := 2) (c := [[97, 98], [99]]) rfl (by decide) (by decide)) .fresh .fresh h1 h2 h3 h4

/-- "ab", "car", "car dog", "dog": of these "car" is the best -/
def carColl : Coll := [(1, [[97, 98]]), (0, [[99, 97, 114]]), (3, [[99, 97, 114], [100, 111, 103]]), (2, [[100, 111, 103]])]

theorem carColl_valid : ValidColl carColl := ⟨by decide, by decide, by decide, by decide, by decide, by decide, by decide, by decide, by decide, by decide⟩

/-- without "ab" -/
def carLess : Coll := carColl.filter (fun r => r.1 != 1)

theorem carLess_valid : ValidColl carLess := C94_valid carColl_valid _ (by decide)

theorem carLess_first : IsFirstTerm carLess [99, 97, 114] := by
  have : (Pre.run carLess).terms[0]'(by decide +kernel) = [99, 97, 114] := by decide +kernel
  rw [← this]
  exact (carLess_valid.ready.isFirst _).mpr rfl

/-- the query "ca" before and after the removal of "ab": `C94_false` applies, with all pairs of types from 1 to 3 and both searches -/
example (std : StdLib) {run run' : StdLib → Ask → Scratch → M Scratch} (hi : IsIndex carColl run) (hi' : IsIndex carLess run') (cj : Bool) : ∃ t res t' res',
    run std ⟨cj, [99, 97], 3⟩ Scratch.fresh = .ok t ∧ t.pool.results = .ok res ∧ run' std ⟨cj, [99, 97], 3⟩ Scratch.fresh = .ok t' ∧ t'.pool.results = .ok res' ∧
      (0, [99, 97, 114]) ∈ res ∧ 0 ∉ res'.map (·.1) := by
  have ha : Ask.Ok ⟨cj, [99, 97], 3⟩ := ⟨show IsText [99, 97] by decide, show 1 ≤ 3 by decide, show 3 ≤ MAX_K by decide⟩
  obtain ⟨t, res, h1, h2⟩ := runs carColl_valid hi std _ ha (show 3 ≤ 8 by decide) .fresh
  obtain ⟨t', res', h3, h4⟩ := runs carLess_valid hi' std _ ha (show 3 ≤ 8 by decide) .fresh
  exact ⟨t, res, t', res', h1, h2, h3, h4, C94_false carColl_valid carLess_valid hi hi' std std cj [99, 97] 3 ha carLess_first (by decide) (by decide) (by decide) (by decide) (by decide)
    (by decide) (by decide) (by decide) (lastOk_of carColl_valid (by decide +kernel)) .fresh .fresh h1 h2 h3 h4⟩

theorem carColl_suits : Suits2 carColl :=
  { terms := ⟨_, carColl_valid.ready.numTerms, by decide +kernel⟩
    doc0 := ⟨[97, 98], ⟨(1, [[97, 98]]), by decide, by decide⟩, by
      have : ∀ r ∈ carColl, r.1 = 0 → [97, 98] ∉ r.2 := by decide
      exact fun c hc => this _ hc rfl⟩
    count := by decide }

theorem carLess_suits : Suits2 carLess :=
  { terms := ⟨_, carLess_valid.ready.numTerms, by decide +kernel⟩
    doc0 := ⟨[100, 111, 103], ⟨(2, [[100, 111, 103]]), by decide, by decide⟩, by
      have : ∀ r ∈ carLess, r.1 = 0 → [100, 111, 103] ∉ r.2 := by decide
      exact fun c hc => this _ hc rfl⟩
    count := by decide }

/-- there are such indexes, of type 3 and type 2 -/
example (mem : Nat → W) : (∃ x : Index3, IsIndex carColl x.ask) ∧ ∃ x : Index2, IsIndex carLess x.ask := by
  obtain ⟨x, h1, _⟩ := Index3.exists carColl_valid.ready carColl_suits.to3 mem
  obtain ⟨x', h1', _⟩ := Index2.exists carLess_valid.ready carLess_suits mem
  exact ⟨⟨x, .type3 carColl_suits.to3 h1⟩, ⟨x', .type2 carLess_suits h1'⟩⟩

/-- "ab", "car dog", "dog": of these "car dog" is the best -/
def dogColl : Coll := [(1, [[97, 98]]), (0, [[99, 97, 114], [100, 111, 103]]), (2, [[100, 111, 103]]), (3, [[101]])]

theorem dogColl_valid : ValidColl dogColl := ⟨by decide, by decide, by decide, by decide, by decide, by decide, by decide, by decide, by decide, by decide⟩

/-- without "ab" -/
def dogLess : Coll := dogColl.filter (fun r => r.1 != 1)

theorem dogLess_valid : ValidColl dogLess := C94_valid dogColl_valid _ (by decide)

theorem dogLess_suits : Suits2 dogLess :=
  { terms := ⟨_, dogLess_valid.ready.numTerms, by decide +kernel⟩
    doc0 := ⟨[101], ⟨(3, [[101]]), by decide, by decide⟩, by
      have : ∀ r ∈ dogLess, r.1 = 0 → [101] ∉ r.2 := by decide
      exact fun c hc => this _ hc rfl⟩
    count := by decide }

/-- the query "car" before and after the removal of "ab": `C94_false_first` applies -/
example (std : StdLib) {run : StdLib → Ask → Scratch → M Scratch} (hi : IsIndex dogColl run) (mem : Nat → W) : ∃ x' : Index2, Index2.build (Pre.run dogLess) mem = .ok x' ∧ ∃ t res t' res',
    run std ⟨false, [99, 97, 114], 3⟩ Scratch.fresh = .ok t ∧ t.pool.results = .ok res ∧ x'.ask std ⟨false, [99, 97, 114], 3⟩ Scratch.fresh = .ok t' ∧ t'.pool.results = .ok res' ∧
      (0, [99, 97, 114, 32, 100, 111, 103]) ∈ res ∧ 0 ∉ res'.map (·.1) := by
  obtain ⟨x', hx', _⟩ := Index2.exists dogLess_valid.ready dogLess_suits mem
  have hi' : IsIndex dogLess x'.ask := .type2 dogLess_suits hx'
  have ha : Ask.Ok ⟨false, [99, 97, 114], 3⟩ := ⟨show IsText [99, 97, 114] by decide, show 1 ≤ 3 by decide, show 3 ≤ MAX_K by decide⟩
  obtain ⟨t, res, h1, h2⟩ := runs dogColl_valid hi std _ ha (show 3 ≤ 8 by decide) .fresh
  obtain ⟨t', res', h3, h4⟩ := runs dogLess_valid hi' std _ ha (show 3 ≤ 8 by decide) .fresh
  exact ⟨x', hx', t, res, t', res', h1, h2, h3, h4, C94_false_first dogColl_valid dogLess_valid hi (.inl ⟨mem, x', dogLess_suits, hx', rfl⟩) std std [99, 97, 114] 3 ha
    (c := [[99, 97, 114], [100, 111, 103]]) (d := 0) (by decide) (by decide) (by decide) (by decide) (lastOk_of dogColl_valid (by decide +kernel))
    ⟨[99, 97, 114], by decide, by decide⟩ (by decide) .fresh .fresh h1 h2 h3 h4⟩

end AC.Props
