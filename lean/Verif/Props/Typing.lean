import Verif.Proofs.Typing
import Verif.Props.Answers4
import Verif.Props.TextPrefix
/-!
# C79 and C80: what one sees while typing
-/
namespace AC.Props
open AC Spec

section
variable {C : Coll} {run : StdLib → Ask → Scratch → M Scratch}

/-- a completion matches its own text, with all the types -/
theorem found_typed (hC : ValidColl C) {pre : List Str → Str → List Str → Prop} (hp : pre = PrefixFound C ∨ pre = PrefixFound2 C) {a : Ask} {d : Nat} {c : List Str}
    (hc : (d, c) ∈ C) (hq : squeeze a.text = joined c) : foundBy C pre a c := by
  have e : completeTerms a.text ++ [lastTerm a.text] = c := terms_of_squeeze (hC.nonempty _ hc) (fun t ht => (hC.words _ hc t ht).2.2) hq
  have hr : Reaches C (lastTerm a.text) (lastTerm a.text) := ⟨List.prefix_refl _, fun _ => .inr rfl⟩
  have ht : IsTerm C (lastTerm a.text) := ⟨_, hc, by rw [← e]; simp⟩
  have hf : PrefixFound C (completeTerms a.text) (lastTerm a.text) c := ⟨_, hr, by rw [e]; exact List.prefix_refl _⟩
  unfold foundBy
  split
  · exact ⟨fun t ht _ => by rw [← e]; simp [ht], _, by rw [← e]; simp, hr⟩
  · rcases hp with rfl | rfl
    · exact hf
    · exact ⟨hf, fun _ => ⟨_, ⟨ht, hr, fun y _ hy => FcDict.prefix_not_lt hy.1⟩, e.symm⟩⟩

/-- **C79**, types 1, 2 and 3: whoever types a completion in full, up to superfluous spaces, is shown it, unless there are `k` better ones. -/
theorem C79_typed (hC : ValidColl C) (hi : IsIndex C run) (std : StdLib) (a : Ask) (ha : a.Ok) {d : Nat} {c : List Str} (hc : (d, c) ∈ C) (hq : squeeze a.text = joined c)
    {s t : Scratch} {res : List (Nat × Str)} (hs : Visited run s) (h1 : run std a s = .ok t) (h2 : t.pool.results = .ok res) : Offered a.k res (d, joined c) := by
  obtain ⟨pre, hp, h⟩ := hi.serves hC
  obtain ⟨E, b, e1, _⟩ := (h std a s ha (hs.wf h)).cases h1
  rw [h2] at e1
  cases e1
  exact b.offered hc (found_typed hC hp hc hq)

/-- **C79**, type 4, prefix search. Missing from the claim: conjunctive search (`C79_false4`). -/
theorem C79_typed4_partial (hC : ValidColl C) (hw : Suits4 C) {std₀ : StdLib} {m : Nat} {mem : Nat → W} {x : Index4} (hb : Index4.build std₀ m (Pre.run C) mem = .ok x)
    (std : StdLib) (a : Ask) (ha : a.Ok) (hj : a.conj = false) {d : Nat} {c : List Str} (hc : (d, c) ∈ C) (hq : squeeze a.text = joined c)
    {s t : Scratch} {res : List (Nat × Str)} (hs : Visited x.ask s) (h1 : x.ask std a s = .ok t) (h2 : t.pool.results = .ok res) : Offered a.k res (d, joined c) := by
  obtain ⟨docss, hx⟩ := Index4.rep_of_build hC hw.toSuits3 hb
  unfold Index4.ask at h1
  rw [hj, if_neg (by decide)] at h1
  obtain ⟨E, b, e1, _⟩ := (Base.prefix_spec std hC.ready hx.base hx.dict hx.built ha.1 ha.2.1 ha.2.2 (type4_wf hC hw hb hs)).cases h1
  rw [h2] at e1
  cases e1
  have hf := found_typed (a := a) hC (.inr rfl) hc hq
  unfold foundBy at hf
  rw [hj, if_neg (by decide)] at hf
  exact b.offered hc hf

/-- **C79 is false** for conjunctive search with type 4: the text of the best completion is typed in full, and its document is the first of a block that has all the terms
but the last; then it is not offered. -/
theorem C79_false4 (hC : ValidColl C) (hw : Suits4 C) {std₀ : StdLib} {m : Nat} {mem : Nat → W} {x : Index4} (hb : Index4.build std₀ m (Pre.run C) mem = .ok x)
    {B : List (List Str)} (hB : IsBlocks C m B) (std : StdLib) (a : Ask) (ha : a.Ok) (hj : a.conj = true) {d : Nat} {c : List Str} (hc : (d, c) ∈ C) (hmin : ∀ r ∈ C, d ≤ r.1)
    (hq : squeeze a.text = joined c) (hlen : 2 ≤ c.length) (hsk : Skipped C B c.dropLast (d, c)) {s t : Scratch} {res : List (Nat × Str)} (hs : Visited x.ask s) (h1 : x.ask std a s = .ok t)
    (h2 : t.pool.results = .ok res) : ¬ Offered a.k res (d, joined c) := by
  obtain ⟨docss, hx⟩ := Index4.rep_of_build hC hw.toSuits3 hb
  have e : completeTerms a.text ++ [lastTerm a.text] = c := terms_of_squeeze (hC.nonempty _ hc) (fun t ht => (hC.words _ hc t ht).2.2) hq
  have ec : completeTerms a.text = c.dropLast := by rw [← e]; simp
  unfold Index4.ask at h1
  rw [hj, if_pos rfl] at h1
  obtain ⟨S, r1, r2⟩ := Index4.conj_spec hC.ready std hx hw.ids ha.1
  rw [C06_blocks_unique (hC.ready.blocks hx.inverted.cut) hB] at r1
  have hres := (r2 a.text ha.1 rfl (fun _ => Iff.rfl) a.k ha.2.1 ha.2.2 s (type4_wf hC hw hb hs)).results h1 h2
  subst hres
  have hkn : ∃ t ∈ completeTerms a.text, IsTerm C t := by
    rw [ec]
    cases hd : c.dropLast with
    | nil =>
        have : c.dropLast.length = 0 := by rw [hd]; rfl
        simp at this; omega
    | cons t ts => exact ⟨t, by simp, _, hc, List.dropLast_subset _ (by rw [hd]; simp)⟩
  rintro (hm | ⟨g1, g2⟩)
  · obtain ⟨r, hr, hd⟩ := List.mem_map.mp hm
    have heS := List.mem_of_mem_take hr
    have hd1 : r.1 = d := congrArg (fun z : Nat × Str => z.1) hd
    have he2 : r.2 = c := hC.ready.unique (d := d) (by rw [← hd1]; exact r1.mem r heS) hc
    have : r = (d, c) := Prod.ext hd1 he2
    subst this
    exact ((r1.inter hkn).2.1 _ heS).2.1 (by rw [ec]; exact hsk)
  · cases hS : (S.take a.k) with
    | nil =>
        rw [hS] at g1
        have := ha.2.1
        simp at g1
        omega
    | cons r _ =>
        have hr : r ∈ S.take a.k := by rw [hS]; simp
        have g3 := g2 (shown r) (List.mem_map.mpr ⟨r, hr, rfl⟩)
        have g4 := hmin r (r1.mem r (List.mem_of_mem_take hr))
        change r.1 < d at g3
        omega

/-! ## C80 -/

theorem ask_append {cj : Bool} {q w : Str} {k : Nat} (ha : Ask.Ok ⟨cj, q, k⟩) (hw : IsText w) : Ask.Ok ⟨cj, q ++ w, k⟩ := by
  refine ⟨fun c hc => ?_, ha.2⟩
  rcases List.mem_append.mp hc with hc | hc
  · exact ha.1 c hc
  · exact hw c hc

/-- **C80**, type 1, prefix search: typing on, one sees nothing that was not offered before. Missing from the claim: queries that end with a strict beginning of the first term
(`C80_false`). -/
theorem C80_type1_partial (hC : ValidColl C) (hw1 : Suits1 C) {mem : Nat → W} {x : Index1} (hb : Index1.build (Pre.run C) mem = .ok x) (std std' : StdLib) (q w : Str) (k : Nat)
    (ha : Ask.Ok ⟨false, q, k⟩) (hw : IsText w) (hl : LastOk C (lastTerm q)) {s s' t t' : Scratch} {res res' : List (Nat × Str)} (hs : Visited x.ask s)
    (hs' : Visited x.ask s') (h1 : x.ask std ⟨false, q, k⟩ s = .ok t) (h2 : t.pool.results = .ok res) (h3 : x.ask std' ⟨false, q ++ w, k⟩ s' = .ok t')
    (h4 : t'.pool.results = .ok res') : ∀ e ∈ res', Offered k res e := by
  have h := Index1.serves hC (Index1.rep_of_build hC hw1 hb)
  obtain ⟨E, b, e1, _⟩ := (h std _ s ha (hs.wf h)).cases h1
  obtain ⟨E', b', e1', _⟩ := (h std' _ s' (ask_append ha hw) (hs'.wf h)).cases h3
  rw [h2] at e1
  rw [h4] at e1'
  cases e1
  cases e1'
  intro e he
  obtain ⟨r, hr, rfl⟩ := List.mem_map.mp he
  obtain ⟨hrC, hp⟩ := b'.sound r hr
  refine b.offered hrC ?_
  obtain ⟨y, hy1, hy2⟩ : PrefixFound C (completeTerms (q ++ w)) (lastTerm (q ++ w)) r.2 := hp
  have hm : PrefixMatch (completeTerms q) (lastTerm q) r.2 := by
    rw [textMatch_iff hC q r hrC]
    refine TextMatch.of_append (w := w) ?_
    rw [← textMatch_iff hC _ r hrC]
    exact ⟨y, hy1.1, hy2⟩
  exact (PrefixFound_iff hl _).mpr hm

theorem first_doc (hC : ValidColl C) {r : Nat × List Str} (hr : r ∈ C) (hf : IsFirstCompletion C r.2) : C.head? = some (r.1, r.2) := by
  obtain ⟨d, hd⟩ := hf
  obtain ⟨d', c⟩ := r
  rw [hd]
  cases C with
  | nil => cases hd
  | cons r₀ C =>
      cases hd
      rcases List.mem_cons.mp hr with e | hm
      · rw [e]
      · have hS := hC.sorted
        rw [List.map_cons, List.pairwise_cons] at hS
        exact absurd (hS.1 _ (List.mem_map.mpr ⟨_, hm, rfl⟩)) (List.lt_irrefl _)

/-- **C80**, types 1, 2 and 3, prefix search: besides, the first completion of the collection may show up. -/
theorem C80_prefix_partial (hC : ValidColl C) (hi : IsIndex C run) (std std' : StdLib) (q w : Str) (k : Nat) (ha : Ask.Ok ⟨false, q, k⟩) (hw : IsText w)
    (hl : LastOk C (lastTerm q)) {s s' t t' : Scratch} {res res' : List (Nat × Str)} (hs : Visited run s)
    (hs' : Visited run s') (h1 : run std ⟨false, q, k⟩ s = .ok t) (h2 : t.pool.results = .ok res) (h3 : run std' ⟨false, q ++ w, k⟩ s' = .ok t')
    (h4 : t'.pool.results = .ok res') : ∀ e ∈ res', Offered k res e ∨ ∃ c, C.head? = some (e.1, c) := by
  obtain ⟨pre, hp, h⟩ := hi.serves hC
  obtain ⟨E, b, e1, _⟩ := (h std _ s ha (hs.wf h)).cases h1
  obtain ⟨E', b', e1', _⟩ := (h std' _ s' (ask_append ha hw) (hs'.wf h)).cases h3
  rw [h2] at e1
  rw [h4] at e1'
  cases e1
  cases e1'
  intro e he
  obtain ⟨r, hr, rfl⟩ := List.mem_map.mp he
  obtain ⟨hrC, hp'⟩ := b'.sound r hr
  by_cases hf : IsFirstCompletion C r.2
  · exact .inr ⟨r.2, first_doc hC hrC hf⟩
  · refine .inl (b.offered hrC ?_)
    obtain ⟨y, hy1, hy2⟩ : PrefixFound C (completeTerms (q ++ w)) (lastTerm (q ++ w)) r.2 := by
      rcases hp with rfl | rfl
      · exact hp'
      · exact hp'.1
    have hm : PrefixMatch (completeTerms q) (lastTerm q) r.2 := by
      rw [textMatch_iff hC q r hrC]
      refine TextMatch.of_append (w := w) ?_
      rw [← textMatch_iff hC _ r hrC]
      exact ⟨y, hy1.1, hy2⟩
    rcases hp with rfl | rfl
    · exact (PrefixFound_iff hl _).mpr hm
    · exact ⟨(PrefixFound_iff hl _).mpr hm, fun h => absurd h hf⟩

/-- **C80**, type 4, prefix search, like types 2 and 3. Missing from the claim: conjunctive search. -/
theorem C80_type4_partial (hC : ValidColl C) (hw4 : Suits4 C) {std₀ : StdLib} {m : Nat} {mem : Nat → W} {x : Index4} (hb : Index4.build std₀ m (Pre.run C) mem = .ok x)
    (std std' : StdLib) (q w : Str) (k : Nat) (ha : Ask.Ok ⟨false, q, k⟩) (hw : IsText w)
    (hl : LastOk C (lastTerm q)) {s s' t t' : Scratch} {res res' : List (Nat × Str)} (hs : Visited x.ask s)
    (hs' : Visited x.ask s') (h1 : x.ask std ⟨false, q, k⟩ s = .ok t) (h2 : t.pool.results = .ok res) (h3 : x.ask std' ⟨false, q ++ w, k⟩ s' = .ok t')
    (h4 : t'.pool.results = .ok res') : ∀ e ∈ res', Offered k res e ∨ ∃ c, C.head? = some (e.1, c) := by
  obtain ⟨docss, hx⟩ := Index4.rep_of_build hC hw4.toSuits3 hb
  obtain ⟨E, b, e1, _⟩ := (Base.prefix_spec std hC.ready hx.base hx.dict hx.built ha.1 ha.2.1 ha.2.2 (type4_wf hC hw4 hb hs)).cases h1
  obtain ⟨E', b', e1', _⟩ := (Base.prefix_spec std' hC.ready hx.base hx.dict hx.built (ask_append ha hw).1 ha.2.1 ha.2.2 (type4_wf hC hw4 hb hs')).cases h3
  rw [h2] at e1
  rw [h4] at e1'
  cases e1
  cases e1'
  intro e he
  obtain ⟨r, hr, rfl⟩ := List.mem_map.mp he
  obtain ⟨hrC, ⟨y, hy1, hy2⟩, _⟩ := b'.sound r hr
  by_cases hf : IsFirstCompletion C r.2
  · exact .inr ⟨r.2, first_doc hC hrC hf⟩
  · have hm : PrefixMatch (completeTerms q) (lastTerm q) r.2 := by
      rw [textMatch_iff hC q r hrC]
      refine TextMatch.of_append (w := w) ?_
      rw [← textMatch_iff hC _ r hrC]
      exact ⟨y, hy1.1, hy2⟩
    exact .inl (b.offered hrC ⟨(PrefixFound_iff hl _).mpr hm, fun h => absurd h hf⟩)

/-- **C80**, types 1, 2 and 3, conjunctive search. Missing from the claim: queries that end with a strict beginning of the first term, and texts typed on with complete terms
that are not in the dictionary (`C80_false_conj`). -/
theorem C80_conj_partial (hC : ValidColl C) (hi : IsIndex C run) (std std' : StdLib) (q w : Str) (k : Nat) (ha : Ask.Ok ⟨true, q, k⟩) (hw : IsText w)
    (hl : LastOk C (lastTerm q)) (hkn : ∀ t ∈ completeTerms (q ++ w), IsTerm C t) {s s' t t' : Scratch} {res res' : List (Nat × Str)} (hs : Visited run s)
    (hs' : Visited run s') (h1 : run std ⟨true, q, k⟩ s = .ok t) (h2 : t.pool.results = .ok res) (h3 : run std' ⟨true, q ++ w, k⟩ s' = .ok t')
    (h4 : t'.pool.results = .ok res') : ∀ e ∈ res', Offered k res e := by
  obtain ⟨pre, _, h⟩ := hi.serves hC
  obtain ⟨E, b, e1, _⟩ := (h std _ s ha (hs.wf h)).cases h1
  obtain ⟨E', b', e1', _⟩ := (h std' _ s' (ask_append ha hw) (hs'.wf h)).cases h3
  rw [h2] at e1
  rw [h4] at e1'
  cases e1
  cases e1'
  intro e he
  obtain ⟨r, hr, rfl⟩ := List.mem_map.mp he
  obtain ⟨hrC, hp⟩ := b'.sound r hr
  exact b.offered hrC (conjFound_typed hl hkn hp)

/-- **C80 is false**, prefix search: a completion starts with the first term of the dictionary. Its text typed in full, it is offered; it is not among the results for a strict
beginning of that term, even when there are less than `k` of them. -/
theorem C80_false (hC : ValidColl C) (hi : IsIndex C run) (std std' : StdLib) (q w : Str) (k : Nat) (ha : Ask.Ok ⟨false, q, k⟩) (hw : IsText w) {u : Str} {ts : List Str} {d : Nat}
    (hu : IsFirstTerm C u) (hsp : space ∉ q) (hne : q ≠ []) (hqu : q <+: u) (hnu : q ≠ u) (hc : (d, u :: ts) ∈ C) (hqw : q ++ w = joined (u :: ts))
    {s s' t t' : Scratch} {res res' : List (Nat × Str)} (hs : Visited run s)
    (hs' : Visited run s') (h1 : run std ⟨false, q, k⟩ s = .ok t) (h2 : t.pool.results = .ok res) (h3 : run std' ⟨false, q ++ w, k⟩ s' = .ok t')
    (h4 : t'.pool.results = .ok res') : Offered k res' (d, joined (u :: ts)) ∧ d ∉ res.map (·.1) := by
  have hsq : squeeze (q ++ w) = joined (u :: ts) := by
    rw [hqw]
    exact squeeze_completion (by simp) (fun t ht => (hC.words _ hc t ht).1) (fun t ht => (hC.words _ hc t ht).2.2)
  refine ⟨C79_typed hC hi std' ⟨false, q ++ w, k⟩ (ask_append ha hw) hc hsq hs' h3 h4, ?_⟩
  obtain ⟨pre, hp, h⟩ := hi.serves hC
  obtain ⟨E, b, e1, _⟩ := (h std _ s ha (hs.wf h)).cases h1
  rw [h2] at e1
  cases e1
  intro hm
  obtain ⟨e, he, hd⟩ := List.mem_map.mp hm
  obtain ⟨r, hr, rfl⟩ := List.mem_map.mp he
  obtain ⟨hrC, hp'⟩ := b.sound r hr
  have hr2 : r.2 = u :: ts := hC.ready.unique (d := d) (by rw [← hd]; exact hrC) hc
  obtain ⟨y, hy1, hy2⟩ : PrefixFound C (completeTerms q) (lastTerm q) r.2 := by
    rcases hp with rfl | rfl
    · exact hp'
    · exact hp'.1
  rw [completeTerms_word hsp, hr2, List.nil_append, List.cons_prefix_cons] at hy2
  rw [lastTerm_word hsp, hy2.1] at hy1
  rcases hy1.2 hu with h | h
  · exact hne h
  · exact hnu h

/-- **C80 is false**, types 2 and 3: the first completion, of two terms or more, is offered when its text is typed in full, and is not among the results for less than its terms. -/
theorem C80_false_first (hC : ValidColl C) (hb : (∃ (mem : Nat → W) (x : Index2), Suits2 C ∧ Index2.build (Pre.run C) mem = .ok x ∧ run = x.ask) ∨
    (∃ (mem : Nat → W) (x : Index3), Suits3 C ∧ Index3.build (Pre.run C) mem = .ok x ∧ run = x.ask)) (std std' : StdLib) (q w : Str) (k : Nat)
    (ha : Ask.Ok ⟨false, q, k⟩) (hw : IsText w) {c : List Str} {d : Nat}
    (hc : C.head? = some (d, c)) (hqw : squeeze (q ++ w) = joined c) (hlen : (completeTerms q).length + 1 < c.length)
    {s s' t t' : Scratch} {res res' : List (Nat × Str)} (hs : Visited run s)
    (hs' : Visited run s') (h1 : run std ⟨false, q, k⟩ s = .ok t) (h2 : t.pool.results = .ok res) (h3 : run std' ⟨false, q ++ w, k⟩ s' = .ok t')
    (h4 : t'.pool.results = .ok res') : TextMatch q c ∧ Offered k res' (d, joined c) ∧ d ∉ res.map (·.1) := by
  obtain ⟨hi, h⟩ : IsIndex C run ∧ Serves C (PrefixFound2 C) run := by
    rcases hb with ⟨mem, x, g1, g2, rfl⟩ | ⟨mem, x, g1, g2, rfl⟩
    · exact ⟨.type2 g1 g2, Index2.serves hC (Index2.rep_of_build hC g1 g2)⟩
    · exact ⟨.type3 g1 g2, Index3.serves hC (Index3.rep_of_build hC g1 g2)⟩
  have hcC : (d, c) ∈ C := List.mem_of_mem_head? hc
  refine ⟨TextMatch.of_append (w := w) (by unfold TextMatch; rw [hqw]; exact List.prefix_refl _),
    C79_typed hC hi std' ⟨false, q ++ w, k⟩ (ask_append ha hw) hcC hqw hs' h3 h4, ?_⟩
  obtain ⟨E, b, e1, _⟩ := (h std _ s ha (hs.wf h)).cases h1
  rw [h2] at e1
  cases e1
  intro hm
  obtain ⟨e, he, hd⟩ := List.mem_map.mp hm
  obtain ⟨r, hr, rfl⟩ := List.mem_map.mp he
  obtain ⟨hrC, hp'⟩ := b.sound r hr
  have hr2 : r.2 = c := hC.ready.unique (d := d) (by rw [← hd]; exact hrC) hcC
  obtain ⟨z, _, hz⟩ := (show PrefixFound2 C (completeTerms q) (lastTerm q) r.2 from hp').2 ⟨d, by rw [hr2]; exact hc⟩
  rw [← hr2, hz] at hlen
  simp at hlen

/-- **C80 is false**, conjunctive search: for a word that no term begins with nothing is found; with a space after it all completions are offered. -/
theorem C80_false_conj (hC : ValidColl C) (hi : IsIndex C run) (std std' : StdLib) (q : Str) (k : Nat) (ha : Ask.Ok ⟨true, q, k⟩) (hsp : space ∉ q)
    (hno : ∀ t, IsTerm C t → ¬ q <+: t) {s s' t t' : Scratch} {res res' : List (Nat × Str)} (hs : Visited run s)
    (hs' : Visited run s') (h1 : run std ⟨true, q, k⟩ s = .ok t) (h2 : t.pool.results = .ok res) (h3 : run std' ⟨true, q ++ [space], k⟩ s' = .ok t')
    (h4 : t'.pool.results = .ok res') : res = [] ∧ ∀ r ∈ C, Offered k res' (r.1, joined r.2) := by
  obtain ⟨pre, _, h⟩ := hi.serves hC
  obtain ⟨E, b, e1, _⟩ := (h std _ s ha (hs.wf h)).cases h1
  obtain ⟨E', b', e1', _⟩ := (h std' _ s' (ask_append ha (by decide)) (hs'.wf h)).cases h3
  rw [h2] at e1
  rw [h4] at e1'
  cases e1
  cases e1'
  constructor
  · cases E with
    | nil => rfl
    | cons r E =>
        obtain ⟨hr, hp⟩ := b.sound r (by simp)
        obtain ⟨_, y, hy, hy2⟩ : ConjFound C (completeTerms q) (lastTerm q) r.2 := hp
        rw [lastTerm_word hsp] at hy2
        exact absurd hy2.1 (hno y ⟨r, hr, hy⟩)
  · intro r hr
    refine b'.offered hr ?_
    have hl : lastTerm (q ++ [space]) = [] := lastTerm_atSpace (s := q) (t := []) (by simp)
    show ConjFound C (completeTerms (q ++ [space])) (lastTerm (q ++ [space])) r.2
    rw [hl]
    obtain ⟨T, e⟩ := typed_space q (u := []) (by simp) []
    constructor
    · intro t ht hT
      exfalso
      have : t = q := by
        have hpc : pieces (q ++ [space]) = [q, []] := by
          have := pieces_append_space q []
          rw [pieces_word hsp] at this
          exact this
        unfold completeTerms at ht
        rw [hpc] at ht
        simp at ht
        exact ht.1
      subst this
      exact hno _ hT (List.prefix_refl _)
    · obtain ⟨y, hy⟩ := List.exists_mem_of_ne_nil _ (hC.nonempty r hr)
      exact ⟨y, hy, List.nil_prefix, fun _ => .inl rfl⟩

/-- a search of at most 8 results succeeds -/
theorem runs (hC : ValidColl C) (hi : IsIndex C run) (std : StdLib) (a : Ask) (ha : a.Ok) (hk : a.k ≤ 8) {s : Scratch} (hs : Visited run s) :
    ∃ t res, run std a s = .ok t ∧ t.pool.results = .ok res := by
  obtain ⟨t, h1⟩ := C36_partial hC hi std a ha hk hs
  obtain ⟨res, h2, _⟩ := C36_needed hC hi std a ha hs h1
  exact ⟨t, res, h1, h2⟩

end

/-! ## Examples -/

theorem sampleColl_first : IsFirstTerm sampleColl [97, 98] := by
  have : (Pre.run sampleColl).terms[0]'(by decide +kernel) = [97, 98] := by decide +kernel
  rw [← this]
  exact (sampleColl_valid.ready.isFirst _).mpr rfl

/-- the completion "c b b" of the sample, typed with superfluous spaces: among the results of both searches for five results, with any type from 1 to 3 -/
example (std : StdLib) {run : StdLib → Ask → Scratch → M Scratch} (hi : IsIndex sampleColl run) (cj : Bool) : ∃ t res, run std ⟨cj, [32, 99, 32, 32, 98, 32, 98], 6⟩ Scratch.fresh = .ok t ∧
    t.pool.results = .ok res ∧ Offered 6 res (5, [99, 32, 98, 32, 98]) := by
  have ha : Ask.Ok ⟨cj, [32, 99, 32, 32, 98, 32, 98], 6⟩ := ⟨show IsText [32, 99, 32, 32, 98, 32, 98] by decide, show 1 ≤ 6 by decide, show 6 ≤ MAX_K by decide⟩
  obtain ⟨t, res, h1, h2⟩ := runs sampleColl_valid hi std _ ha (show 6 ≤ 8 by decide) .fresh
  exact ⟨t, res, h1, h2, C79_typed sampleColl_valid hi std _ ha (d := 5) (c := [[99], [98], [98]]) (by decide) (show squeeze [32, 99, 32, 32, 98, 32, 98] = _ by decide) .fresh h1 h2⟩

/-- from "b" to "b a", with the three types: the hypotheses of `C80_prefix_partial` and `C80_conj_partial` -/
example (std : StdLib) {run : StdLib → Ask → Scratch → M Scratch} (hi : IsIndex sampleColl run) (cj : Bool) : LastOk sampleColl (lastTerm [98]) ∧
    (∀ t ∈ completeTerms ([98] ++ [32, 97, 98]), IsTerm sampleColl t) ∧ ∃ t res t' res', run std ⟨cj, [98], 3⟩ Scratch.fresh = .ok t ∧ t.pool.results = .ok res ∧
    run std ⟨cj, [98] ++ [32, 97, 98], 3⟩ t = .ok t' ∧ t'.pool.results = .ok res' ∧ Visited run t ∧ Offered 3 res' (7, [98, 32, 97, 98]) := by
  have ha : Ask.Ok ⟨cj, [98], 3⟩ := ⟨show IsText [98] by decide, show 1 ≤ 3 by decide, show 3 ≤ MAX_K by decide⟩
  have ha' : Ask.Ok ⟨cj, [98] ++ [32, 97, 98], 3⟩ := ⟨show IsText [98, 32, 97, 98] by decide, show 1 ≤ 3 by decide, show 3 ≤ MAX_K by decide⟩
  obtain ⟨t, res, h1, h2⟩ := runs sampleColl_valid hi std _ ha (show 3 ≤ 8 by decide) .fresh
  obtain ⟨t', res', h3, h4⟩ := runs sampleColl_valid hi std _ ha' (show 3 ≤ 8 by decide) (.step .fresh ha h1)
  refine ⟨lastOk_of sampleColl_valid (by decide +kernel), ?_, t, res, t', res', h1, h2, h3, h4, .step .fresh ha h1,
    C79_typed sampleColl_valid hi std _ ha' (d := 7) (c := [[98], [97, 98]]) (by decide) (show squeeze [98, 32, 97, 98] = _ by decide) (.step .fresh ha h1) h3 h4⟩
  intro t ht
  rw [show completeTerms ([98] ++ [32, 97, 98]) = [[98]] by decide] at ht
  rw [List.mem_singleton.mp ht]
  exact (sampleColl_terms _).mpr (by decide)

/-- from "a" to "ab c", with the three types: `C80_false` applies -/
example (std : StdLib) {run : StdLib → Ask → Scratch → M Scratch} (hi : IsIndex sampleColl run) : ∃ t res t' res', run std ⟨false, [97], 3⟩ Scratch.fresh = .ok t ∧ t.pool.results = .ok res ∧
    run std ⟨false, [97] ++ [98, 32, 99], 3⟩ t = .ok t' ∧ t'.pool.results = .ok res' ∧ Offered 3 res' (2, [97, 98, 32, 99]) ∧ 2 ∉ res.map (·.1) := by
  have ha : Ask.Ok ⟨false, [97], 3⟩ := ⟨show IsText [97] by decide, show 1 ≤ 3 by decide, show 3 ≤ MAX_K by decide⟩
  obtain ⟨t, res, h1, h2⟩ := runs sampleColl_valid hi std _ ha (show 3 ≤ 8 by decide) .fresh
  obtain ⟨t', res', h3, h4⟩ := runs sampleColl_valid hi std _ (ask_append (w := [98, 32, 99]) ha (by decide)) (show 3 ≤ 8 by decide) (.step .fresh ha h1)
  exact ⟨t, res, t', res', h1, h2, h3, h4, C80_false sampleColl_valid hi std std [97] [98, 32, 99] 3 ha (by decide) (u := [97, 98]) (ts := [[99]]) (d := 2) sampleColl_first (by decide) (by decide)
    (by decide) (by decide) (by decide) (by decide) .fresh (.step .fresh ha h1) h1 h2 h3 h4⟩

/-- from "ab" to "ab b", with type 3: `C80_false_first` applies -/
example (std : StdLib) (mem : Nat → W) : ∃ x : Index3, Index3.build (Pre.run sampleColl) mem = .ok x ∧ ∃ t res t' res', x.ask std ⟨false, [97, 98], 3⟩ Scratch.fresh = .ok t ∧
    t.pool.results = .ok res ∧ x.ask std ⟨false, [97, 98] ++ [32, 98], 3⟩ t = .ok t' ∧ t'.pool.results = .ok res' ∧ Offered 3 res' (4, [97, 98, 32, 98]) ∧ 4 ∉ res.map (·.1) := by
  obtain ⟨x, hx, _⟩ := Index3.exists sampleColl_valid.ready sampleColl_suits.to3 mem
  have hi : IsIndex sampleColl x.ask := .type3 sampleColl_suits.to3 hx
  have ha : Ask.Ok ⟨false, [97, 98], 3⟩ := ⟨show IsText [97, 98] by decide, show 1 ≤ 3 by decide, show 3 ≤ MAX_K by decide⟩
  obtain ⟨t, res, h1, h2⟩ := runs sampleColl_valid hi std _ ha (show 3 ≤ 8 by decide) .fresh
  obtain ⟨t', res', h3, h4⟩ := runs sampleColl_valid hi std _ (ask_append (w := [32, 98]) ha (by decide)) (show 3 ≤ 8 by decide) (.step .fresh ha h1)
  exact ⟨x, hx, t, res, t', res', h1, h2, h3, h4, (C80_false_first sampleColl_valid (.inr ⟨mem, x, sampleColl_suits.to3, hx, rfl⟩) std std [97, 98] [32, 98] 3 ha (by decide) (c := [[97, 98], [98]]) (d := 4)
    (by decide) (by decide) (by decide) .fresh (.step .fresh ha h1) h1 h2 h3 h4).2⟩

/-- from "zz" to "zz ", conjunctive search with the three types: `C80_false_conj` applies -/
example (std : StdLib) {run : StdLib → Ask → Scratch → M Scratch} (hi : IsIndex sampleColl run) : ∃ t t' res', run std ⟨true, [122, 122], 3⟩ Scratch.fresh = .ok t ∧ t.pool.results = .ok [] ∧
    run std ⟨true, [122, 122] ++ [space], 3⟩ t = .ok t' ∧ t'.pool.results = .ok res' ∧ Offered 3 res' (0, [98]) := by
  have ha : Ask.Ok ⟨true, [122, 122], 3⟩ := ⟨show IsText [122, 122] by decide, show 1 ≤ 3 by decide, show 3 ≤ MAX_K by decide⟩
  obtain ⟨t, res, h1, h2⟩ := runs sampleColl_valid hi std _ ha (show 3 ≤ 8 by decide) .fresh
  obtain ⟨t', res', h3, h4⟩ := runs sampleColl_valid hi std _ (ask_append (w := [space]) ha (by decide)) (show 3 ≤ 8 by decide) (.step .fresh ha h1)
  obtain ⟨g1, g2⟩ := C80_false_conj sampleColl_valid hi std std [122, 122] 3 ha (by decide) (by
    intro t ht
    rw [sampleColl_terms] at ht
    revert t
    decide) .fresh (.step .fresh ha h1) h1 h2 h3 h4
  rw [g1] at h2
  exact ⟨t, t', res', h1, h2, h3, h4, g2 (0, [[98]]) (by decide)⟩

/-- the query "b c" of `pairColl`, the text of the best completion, is not answered by conjunctive search with type 4: `C79_false4` applies -/
example (mem : Nat → W) (std : StdLib) : ∃ x t res, Index4.build std 100 (Pre.run pairColl) mem = .ok x ∧ x.ask std ⟨true, [98, 32, 99], 3⟩ Scratch.fresh = .ok t ∧
    t.pool.results = .ok res ∧ ¬ Offered 3 res (0, [98, 32, 99]) := by
  obtain ⟨x, docss, h1, _⟩ := Index4.exists pairColl_valid.ready pairColl_suits.toSuits3 std 100 mem
  have a2 : Ask.Ok ⟨true, [98, 32, 99], 3⟩ := ⟨by decide, by decide, by decide⟩
  obtain ⟨t, e2⟩ := C36_type4_partial pairColl_valid pairColl_suits h1 std _ a2 (by decide) .fresh
  obtain ⟨res, f2, _⟩ := C36_needed4 pairColl_valid pairColl_suits h1 std _ a2 .fresh e2
  have hB : IsBlocks pairColl 100 [[[97], [98], [99]]] :=
    ⟨by decide, fun t => by rw [pairColl_terms]; rfl, by decide, by decide, by decide⟩
  refine ⟨x, t, res, h1, e2, f2, C79_false4 pairColl_valid pairColl_suits h1 hB std _ a2 rfl (d := 0) (c := [[98], [99]]) (by decide) (by decide) (by decide) (by decide) ?_ .fresh e2 f2⟩
  refine ⟨_, List.mem_singleton.mpr rfl, ?_, ⟨[98], by decide, by decide⟩, fun _ _ _ => Nat.zero_le _⟩
  intro t ht _
  exact (by decide : ∀ t ∈ [[98]], t ∈ [[97], [98], [99]]) t ht

end AC.Props
