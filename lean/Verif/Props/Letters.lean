import Verif.Proofs.LettersOrder
import Verif.Props.Renumber
/-!
# C101: other letters
-/
namespace AC.Props
open AC Spec

section
variable {f : Nat → Nat} (hf : Renaming f) {C D : Coll} (h : Renamed f C D) {run run' : StdLib → Ask → Scratch → M Scratch}
include hf h

/-- **C101**, types 1, 2 and 3 (also when the two indexes are of different types), conjunctive search. Missing from the claim: queries that end with a strict beginning of the
first term of one of the collections (`C101_false`). -/
theorem C101_conj_partial (hC : ValidColl C) (hD : ValidColl D) (hi : IsIndex C run) (hi' : IsIndex D run') (std std' : StdLib) (q : Str) (k : Nat)
    (ha : Ask.Ok ⟨true, q, k⟩) (ha' : IsText (rename f q)) (hl : LastOk C (lastTerm q)) (hl' : LastOk D (lastTerm (rename f q))) {s s' t t' : Scratch}
    {res res' : List (Nat × Str)} (hs : Visited run s) (hs' : Visited run' s') (h1 : run std ⟨true, q, k⟩ s = .ok t) (h2 : t.pool.results = .ok res)
    (h3 : run' std' ⟨true, rename f q, k⟩ s' = .ok t') (h4 : t'.pool.results = .ok res') : res' = res.map fun r => (r.1, rename f r.2) := by
  obtain ⟨_, _, g⟩ := hi.serves hC
  obtain ⟨_, _, g'⟩ := hi'.serves hD
  obtain ⟨E, b, e1, _⟩ := (g std _ s ha (hs.wf g)).cases h1
  obtain ⟨E', b', e1', _⟩ := (g' std' ⟨true, rename f q, k⟩ s' ⟨ha', ha.2⟩ (hs'.wf g')).cases h3
  rw [h2] at e1
  rw [h4] at e1'
  cases e1
  cases e1'
  refine b.rename hf h hD.docs b' fun c => ?_
  refine (ConjFound_iff hl' _).trans (Iff.trans ?_ (ConjFound_iff hl c).symm)
  show ConjMatch D (completeTerms (rename f q)) (lastTerm (rename f q)) (renameAll f c) ↔ _
  rw [completeTerms_rename hf, lastTerm_rename hf]
  exact conjMatch_rename hf h _ _ _

/-- **C101**, type 1, prefix search. Missing from the claim: queries that end with a strict beginning of the first term of one of the collections (`C101_false`). -/
theorem C101_type1_partial (hC : ValidColl C) (hD : ValidColl D) (hw : Suits1 C) (hw' : Suits1 D) {mem mem' : Nat → W} {x x' : Index1}
    (hb : Index1.build (Pre.run C) mem = .ok x) (hb' : Index1.build (Pre.run D) mem' = .ok x') (std std' : StdLib) (q : Str) (k : Nat)
    (ha : Ask.Ok ⟨false, q, k⟩) (ha' : IsText (rename f q)) (hl : LastOk C (lastTerm q)) (hl' : LastOk D (lastTerm (rename f q))) {s s' t t' : Scratch}
    {res res' : List (Nat × Str)} (hs : Visited x.ask s) (hs' : Visited x'.ask s') (h1 : x.ask std ⟨false, q, k⟩ s = .ok t) (h2 : t.pool.results = .ok res)
    (h3 : x'.ask std' ⟨false, rename f q, k⟩ s' = .ok t') (h4 : t'.pool.results = .ok res') : res' = res.map fun r => (r.1, rename f r.2) := by
  have g := Index1.serves hC (Index1.rep_of_build hC hw hb)
  have g' := Index1.serves hD (Index1.rep_of_build hD hw' hb')
  obtain ⟨E, b, e1, _⟩ := (g std _ s ha (hs.wf g)).cases h1
  obtain ⟨E', b', e1', _⟩ := (g' std' ⟨false, rename f q, k⟩ s' ⟨ha', ha.2⟩ (hs'.wf g')).cases h3
  rw [h2] at e1
  rw [h4] at e1'
  cases e1
  cases e1'
  refine b.rename hf h hD.docs b' fun c => ?_
  refine (PrefixFound_iff hl' _).trans (Iff.trans ?_ (PrefixFound_iff hl c).symm)
  show PrefixMatch (completeTerms (rename f q)) (lastTerm (rename f q)) (renameAll f c) ↔ _
  rw [completeTerms_rename hf, lastTerm_rename hf]
  exact prefixMatch_rename hf _ _ _

/-- **C101**, types 1, 2 and 3 (also when the two indexes are of different types), prefix search. Missing from the claim: queries that end with a strict beginning of the first
term of one of the collections (`C101_false`), or that the first completion of one of them matches (`C101_false_first`). -/
theorem C101_prefix_partial (hC : ValidColl C) (hD : ValidColl D) (hi : IsIndex C run) (hi' : IsIndex D run') (std std' : StdLib) (q : Str) (k : Nat)
    (ha : Ask.Ok ⟨false, q, k⟩) (ha' : IsText (rename f q)) (hl : LastOk C (lastTerm q)) (hl' : LastOk D (lastTerm (rename f q))) (hfa : FirstApart C q)
    (hfa' : FirstApart D (rename f q)) {s s' t t' : Scratch} {res res' : List (Nat × Str)} (hs : Visited run s) (hs' : Visited run' s')
    (h1 : run std ⟨false, q, k⟩ s = .ok t) (h2 : t.pool.results = .ok res) (h3 : run' std' ⟨false, rename f q, k⟩ s' = .ok t') (h4 : t'.pool.results = .ok res') :
    res' = res.map fun r => (r.1, rename f r.2) := by
  obtain ⟨_, hp, g⟩ := hi.serves hC
  obtain ⟨_, hp', g'⟩ := hi'.serves hD
  obtain ⟨E, b, e1, _⟩ := (g std _ s ha (hs.wf g)).cases h1
  obtain ⟨E', b', e1', _⟩ := (g' std' ⟨false, rename f q, k⟩ s' ⟨ha', ha.2⟩ (hs'.wf g')).cases h3
  rw [h2] at e1
  rw [h4] at e1'
  cases e1
  cases e1'
  refine b.rename hf h hD.docs b' fun c => ?_
  refine (pre_iff hl' hfa' hp' k _).trans (Iff.trans ?_ (pre_iff hl hfa hp k c).symm)
  rw [completeTerms_rename hf, lastTerm_rename hf]
  exact prefixMatch_rename hf _ _ _

/-- **C101**, type 4, prefix search, like types 2 and 3 (the block sizes may be different). Missing from the claim: what is missing with types 2 and 3. -/
theorem C101_type4_partial (hC : ValidColl C) (hD : ValidColl D) (hw : Suits4 C) (hw' : Suits4 D) {std₀ std₀' : StdLib} {m m' : Nat} {mem mem' : Nat → W}
    {x x' : Index4} (hb : Index4.build std₀ m (Pre.run C) mem = .ok x) (hb' : Index4.build std₀' m' (Pre.run D) mem' = .ok x') (std std' : StdLib) (q : Str) (k : Nat)
    (ha : Ask.Ok ⟨false, q, k⟩) (ha' : IsText (rename f q)) (hl : LastOk C (lastTerm q)) (hl' : LastOk D (lastTerm (rename f q))) (hfa : FirstApart C q)
    (hfa' : FirstApart D (rename f q)) {s s' t t' : Scratch} {res res' : List (Nat × Str)} (hs : Visited x.ask s) (hs' : Visited x'.ask s')
    (h1 : x.ask std ⟨false, q, k⟩ s = .ok t) (h2 : t.pool.results = .ok res) (h3 : x'.ask std' ⟨false, rename f q, k⟩ s' = .ok t') (h4 : t'.pool.results = .ok res') :
    res' = res.map fun r => (r.1, rename f r.2) := by
  obtain ⟨_, hx⟩ := Index4.rep_of_build hC hw.toSuits3 hb
  obtain ⟨_, hx'⟩ := Index4.rep_of_build hD hw'.toSuits3 hb'
  obtain ⟨E, b, e1, _⟩ := (Base.prefix_spec std hC.ready hx.base hx.dict hx.built ha.1 ha.2.1 ha.2.2 (type4_wf hC hw hb hs)).cases h1
  obtain ⟨E', b', e1', _⟩ := (Base.prefix_spec std' hD.ready hx'.base hx'.dict hx'.built ha' ha.2.1 ha.2.2 (type4_wf hD hw' hb' hs')).cases h3
  rw [h2] at e1
  rw [h4] at e1'
  cases e1
  cases e1'
  refine b.rename hf h hD.docs b' fun c => ?_
  refine (prefixFound2_iff hl' hfa' _).trans (Iff.trans ?_ (prefixFound2_iff hl hfa c).symm)
  rw [completeTerms_rename hf, lastTerm_rename hf]
  exact prefixMatch_rename hf _ _ _

/-- **C101**, type 4, conjunctive search (the block sizes may be different). Missing from the claim: besides what is missing for the other types, queries that type 4 does not answer
completely (C06). -/
theorem C101_conj4_partial (hC : ValidColl C) (hD : ValidColl D) (hw : Suits4 C) (hw' : Suits4 D) {std₀ std₀' : StdLib} {m m' : Nat} {mem mem' : Nat → W}
    {x x' : Index4} (hb : Index4.build std₀ m (Pre.run C) mem = .ok x) (hb' : Index4.build std₀' m' (Pre.run D) mem' = .ok x') {B B' : List (List Str)} (hB : IsBlocks C m B)
    (hB' : IsBlocks D m' B') (std std' : StdLib) (q : Str) (k : Nat) (ha : Ask.Ok ⟨true, q, k⟩) (ha' : IsText (rename f q)) (hl : LastOk C (lastTerm q))
    (hl' : LastOk D (lastTerm (rename f q))) (hq : Complete4 C B q) (hq' : Complete4 D B' (rename f q)) {s s' t t' : Scratch}
    {res res' : List (Nat × Str)} (hs : Visited x.ask s) (hs' : Visited x'.ask s') (h1 : x.ask std ⟨true, q, k⟩ s = .ok t) (h2 : t.pool.results = .ok res)
    (h3 : x'.ask std' ⟨true, rename f q, k⟩ s' = .ok t') (h4 : t'.pool.results = .ok res') : res' = res.map fun r => (r.1, rename f r.2) := by
  obtain ⟨_, hx⟩ := Index4.rep_of_build hC hw.toSuits3 hb
  obtain ⟨_, hx'⟩ := Index4.rep_of_build hD hw'.toSuits3 hb'
  obtain ⟨S, r1, r2⟩ := Index4.conj_spec hC.ready std hx hw.ids ha.1
  obtain ⟨S', r1', r2'⟩ := Index4.conj_spec hD.ready std' hx' hw'.ids ha'
  rw [C06_blocks_unique (hC.ready.blocks hx.inverted.cut) hB] at r1
  rw [C06_blocks_unique (hD.ready.blocks hx'.inverted.cut) hB'] at r1'
  have e := (r2 q ha.1 rfl (fun _ => Iff.rfl) k ha.2.1 ha.2.2 s (type4_wf hC hw hb hs)).results h1 h2
  have e' := (r2' (rename f q) ha' rfl (fun _ => Iff.rfl) k ha.2.1 ha.2.2 s' (type4_wf hD hw' hb' hs')).results h3 h4
  subst e e'
  have b := r1.best hC hB hl hq.1 hq.2 k
  have b' := r1'.best hD hB' hl' hq'.1 hq'.2 k
  refine b.rename hf h hD.docs b' fun c => ?_
  rw [completeTerms_rename hf, lastTerm_rename hf]
  exact conjMatch_rename hf h _ _ _

omit h in
theorem rename_space {q : Str} (hsp : space ∉ q) : space ∉ rename f q := by
  intro hm
  obtain ⟨a, ha, e⟩ := List.mem_map.mp hm
  exact hsp (hf.inj a space (e.trans hf.space.symm) ▸ ha)

/-- **C101 is false**: the best completion is a single term, which is shown for a strict beginning of it. With other letters, with which it is the first term of the dictionary, it is not
shown any more, with both searches. -/
theorem C101_false (hC : ValidColl C) (hD : ValidColl D) (hi : IsIndex C run) (hi' : IsIndex D run') (std std' : StdLib) (cj : Bool) (q : Str) (k : Nat)
    (ha : Ask.Ok ⟨cj, q, k⟩) (ha' : IsText (rename f q)) {u : Str} {d : Nat} (hu : IsFirstTerm D (rename f u)) (hc : (d, [u]) ∈ C) (hmin : ∀ r ∈ C, d ≤ r.1)
    (hhead : C.head? ≠ some (d, [u])) (hsp : space ∉ q) (hne : q ≠ []) (hqu : q <+: u) (hnu : q ≠ u) (hl : LastOk C q) {s s' t t' : Scratch}
    {res res' : List (Nat × Str)} (hs : Visited run s) (hs' : Visited run' s') (h1 : run std ⟨cj, q, k⟩ s = .ok t) (h2 : t.pool.results = .ok res)
    (h3 : run' std' ⟨cj, rename f q, k⟩ s' = .ok t') (h4 : t'.pool.results = .ok res') : (d, u) ∈ res ∧ d ∉ res'.map (·.1) := by
  obtain ⟨pre, hp, g⟩ := hi.serves hC
  obtain ⟨pre', hp', g'⟩ := hi'.serves hD
  obtain ⟨E, b, e1, _⟩ := (g std _ s ha (hs.wf g)).cases h1
  obtain ⟨E', b', e1', _⟩ := (g' std' ⟨cj, rename f q, k⟩ s' ⟨ha', ha.2⟩ (hs'.wf g')).cases h3
  rw [h2] at e1
  rw [h4] at e1'
  cases e1
  cases e1'
  have hd : (d, [rename f u]) ∈ D := (h _).mpr ⟨_, hc, rfl⟩
  have hr : Reaches C q u := ⟨hqu, fun hf => hl u hf hqu⟩
  have hnr : ¬ Reaches D (rename f q) (rename f u) := fun hr' => by
    rcases hr'.2 hu with e | e
    · exact hne (rename_inj hf (t := []) e)
    · exact hnu (rename_inj hf e)
  have hsp' := rename_space hf hsp
  constructor
  · refine shown_of_min b ha.2.1 (r := (d, [u])) hc ?_ hmin
    unfold foundBy
    dsimp only
    rw [completeTerms_word hsp, lastTerm_word hsp]
    have hpf : PrefixFound C [] q [u] := ⟨u, hr, by simp⟩
    split
    · exact ⟨fun _ ht => absurd ht (by simp), u, by simp, hr⟩
    · rcases hp with rfl | rfl
      · exact hpf
      · exact ⟨hpf, fun hf => absurd (first_doc hC hc hf) hhead⟩
  · refine not_shown hD b' (r := (d, [rename f u])) hd ?_
    unfold foundBy
    dsimp only
    rw [completeTerms_word hsp', lastTerm_word hsp']
    have hnp : ¬ PrefixFound D [] (rename f q) [rename f u] := by
      rintro ⟨y, hy, hy2⟩
      rw [List.nil_append, List.cons_prefix_cons] at hy2
      rw [hy2.1] at hy
      exact hnr hy
    split
    · rintro ⟨_, y, hy, hy2⟩
      rw [List.mem_singleton.mp hy] at hy2
      exact hnr hy2
    · rcases hp' with rfl | rfl
      · exact hnp
      · exact fun hq => hnp hq.1

/-- **C101 is false**, types 2 and 3, prefix search: the best completion matches a query of less terms. With other letters, with which it is the first completion, it is not shown any
more. -/
theorem C101_false_first (hC : ValidColl C) (hD : ValidColl D) (hi : IsIndex C run)
    (hb : (∃ mem x, Suits2 D ∧ Index2.build (Pre.run D) mem = .ok x ∧ run' = x.ask) ∨ (∃ mem x, Suits3 D ∧ Index3.build (Pre.run D) mem = .ok x ∧ run' = x.ask))
    (std std' : StdLib) (q : Str) (k : Nat) (ha : Ask.Ok ⟨false, q, k⟩) (ha' : IsText (rename f q)) {c : List Str} {d : Nat} (hc : (d, c) ∈ C) (hmin : ∀ r ∈ C, d ≤ r.1)
    (hhead : C.head? ≠ some (d, c)) (hhead' : D.head? = some (d, renameAll f c)) (hl : LastOk C (lastTerm q)) (hm : PrefixMatch (completeTerms q) (lastTerm q) c)
    (hlen : (completeTerms q).length + 1 < c.length) {s s' t t' : Scratch} {res res' : List (Nat × Str)} (hs : Visited run s)
    (hs' : Visited run' s') (h1 : run std ⟨false, q, k⟩ s = .ok t) (h2 : t.pool.results = .ok res) (h3 : run' std' ⟨false, rename f q, k⟩ s' = .ok t')
    (h4 : t'.pool.results = .ok res') : (d, joined c) ∈ res ∧ d ∉ res'.map (·.1) := by
  obtain ⟨pre, hp, g⟩ := hi.serves hC
  have g' : Serves D (PrefixFound2 D) run' := by
    rcases hb with ⟨mem, x, g1, g2, rfl⟩ | ⟨mem, x, g1, g2, rfl⟩
    · exact Index2.serves hD (Index2.rep_of_build hD g1 g2)
    · exact Index3.serves hD (Index3.rep_of_build hD g1 g2)
  obtain ⟨E, b, e1, _⟩ := (g std _ s ha (hs.wf g)).cases h1
  obtain ⟨E', b', e1', _⟩ := (g' std' ⟨false, rename f q, k⟩ s' ⟨ha', ha.2⟩ (hs'.wf g')).cases h3
  rw [h2] at e1
  rw [h4] at e1'
  cases e1
  cases e1'
  constructor
  · refine shown_of_min b ha.2.1 (r := (d, c)) hc ?_ hmin
    show pre (completeTerms q) (lastTerm q) c
    rcases hp with rfl | rfl
    · exact (PrefixFound_iff hl c).mpr hm
    · exact ⟨(PrefixFound_iff hl c).mpr hm, fun hf => absurd (first_doc hC hc hf) hhead⟩
  · refine not_shown hD b' (r := (d, renameAll f c)) (List.mem_of_mem_head? hhead') ?_
    intro hq
    obtain ⟨z, _, hz⟩ := (show PrefixFound2 D (completeTerms (rename f q)) (lastTerm (rename f q)) (renameAll f c) from hq).2 ⟨d, hhead'⟩
    rw [completeTerms_rename hf] at hz
    have := congrArg List.length hz
    simp only [renameAll, List.length_append, List.length_map, List.length_singleton] at this
    omega

end

/-! ## The same order of letters -/

section
variable {f : Nat → Nat} (hf : Ordered f) {C : Coll}
include hf

/-- With other letters in the same order, the collection stays valid and can be indexed with the same types. -/
theorem C101_valid (hC : ValidColl C) (ht : ∀ r ∈ C, ∀ t ∈ r.2, IsText (rename f t)) : ValidColl (renameColl f C) ∧ (Suits1 C → Suits1 (renameColl f C)) ∧
    (Suits2 C → Suits2 (renameColl f C)) ∧ (Suits3 C → Suits3 (renameColl f C)) :=
  ⟨renameColl_valid hf hC ht, renameColl_suits1 hf, renameColl_suits2 hf, renameColl_suits3 hf⟩

/-- **C101** when the order of the letters stays: all queries and both searches, two indexes of the same type from 1 to 3. -/
theorem C101_ordered (hC : ValidColl C) (ht : ∀ r ∈ C, ∀ t ∈ r.2, IsText (rename f t)) {run run' : StdLib → Ask → Scratch → M Scratch} (hi : Twins C (renameColl f C) run run')
    (std std' : StdLib) (a : Ask) (ha : a.Ok) (ha' : IsText (rename f a.text)) {s s' t t' : Scratch} {res res' : List (Nat × Str)} (hs : Visited run s) (hs' : Visited run' s')
    (h1 : run std a s = .ok t) (h2 : t.pool.results = .ok res) (h3 : run' std' ⟨a.conj, rename f a.text, a.k⟩ s' = .ok t') (h4 : t'.pool.results = .ok res') :
    res' = res.map fun r => (r.1, rename f r.2) := by
  have hD := renameColl_valid hf hC ht
  have key : ∃ pre pre', Serves C pre run ∧ Serves (renameColl f C) pre' run' ∧
      ∀ complete last c, pre' (renameAll f complete) (rename f last) (renameAll f c) ↔ pre complete last c := by
    cases hi with
    | type1 hw hw' hb hb' =>
        exact ⟨_, _, Index1.serves hC (Index1.rep_of_build hC hw hb), Index1.serves hD (Index1.rep_of_build hD hw' hb'), prefixFound_rename hf⟩
    | type2 hw hw' hb hb' =>
        exact ⟨_, _, Index2.serves hC (Index2.rep_of_build hC hw hb), Index2.serves hD (Index2.rep_of_build hD hw' hb'), prefixFound2_rename hf⟩
    | type3 hw hw' hb hb' =>
        exact ⟨_, _, Index3.serves hC (Index3.rep_of_build hC hw hb), Index3.serves hD (Index3.rep_of_build hD hw' hb'), prefixFound2_rename hf⟩
  obtain ⟨pre, pre', g, g', hp⟩ := key
  obtain ⟨E, b, e1, _⟩ := (g std a s ha (hs.wf g)).cases h1
  obtain ⟨E', b', e1', _⟩ := (g' std' ⟨a.conj, rename f a.text, a.k⟩ s' ⟨ha', ha.2⟩ (hs'.wf g')).cases h3
  rw [h2] at e1
  rw [h4] at e1'
  cases e1
  cases e1'
  refine b.rename hf.renaming (renamed_renameColl hf) hD.docs b' fun c => ?_
  unfold foundBy
  dsimp only
  rw [completeTerms_rename hf.renaming, lastTerm_rename hf.renaming]
  split
  · exact conjFound_rename hf _ _ _
  · exact hp _ _ _

/-- **C101** when the order of the letters stays, type 4, prefix search. -/
theorem C101_ordered4 (hC : ValidColl C) (ht : ∀ r ∈ C, ∀ t ∈ r.2, IsText (rename f t)) (hw : Suits4 C) (hw' : Suits4 (renameColl f C)) {std₀ std₀' : StdLib} {m m' : Nat}
    {mem mem' : Nat → W} {x x' : Index4} (hb : Index4.build std₀ m (Pre.run C) mem = .ok x) (hb' : Index4.build std₀' m' (Pre.run (renameColl f C)) mem' = .ok x')
    (std std' : StdLib) (q : Str) (k : Nat) (ha : Ask.Ok ⟨false, q, k⟩) (ha' : IsText (rename f q)) {s s' t t' : Scratch} {res res' : List (Nat × Str)} (hs : Visited x.ask s)
    (hs' : Visited x'.ask s') (h1 : x.ask std ⟨false, q, k⟩ s = .ok t) (h2 : t.pool.results = .ok res) (h3 : x'.ask std' ⟨false, rename f q, k⟩ s' = .ok t')
    (h4 : t'.pool.results = .ok res') : res' = res.map fun r => (r.1, rename f r.2) := by
  have hD := renameColl_valid hf hC ht
  obtain ⟨_, hx⟩ := Index4.rep_of_build hC hw.toSuits3 hb
  obtain ⟨_, hx'⟩ := Index4.rep_of_build hD hw'.toSuits3 hb'
  obtain ⟨E, b, e1, _⟩ := (Base.prefix_spec std hC.ready hx.base hx.dict hx.built ha.1 ha.2.1 ha.2.2 (type4_wf hC hw hb hs)).cases h1
  obtain ⟨E', b', e1', _⟩ := (Base.prefix_spec std' hD.ready hx'.base hx'.dict hx'.built ha' ha.2.1 ha.2.2 (type4_wf hD hw' hb' hs')).cases h3
  rw [h2] at e1
  rw [h4] at e1'
  cases e1
  cases e1'
  refine b.rename hf.renaming (renamed_renameColl hf) hD.docs b' fun c => ?_
  rw [completeTerms_rename hf.renaming, lastTerm_rename hf.renaming]
  exact prefixFound2_rename hf _ _ _

end

/-! ## Examples -/

/-- "a" and "c" change places -/
def swapAC (x : Nat) : Nat := if x = 97 then 99 else if x = 99 then 97 else x

theorem swapAC_renaming : Renaming swapAC := by
  refine ⟨fun a b h => ?_, rfl⟩
  unfold swapAC at h
  split at h <;> split at h <;> (try split at h) <;> (try split at h) <;> omega

theorem renamed_of {f : Nat → Nat} {C D : Coll} (h : D.Perm (C.map fun r => (r.1, renameAll f r.2))) : Renamed f C D := by
  intro r
  rw [h.mem_iff, List.mem_map]
  exact ⟨fun ⟨s, h1, h2⟩ => ⟨s, h1, h2.symm⟩, fun ⟨s, h1, h2⟩ => ⟨s, h1, h2.symm⟩⟩

/-- the sample with other letters: "a b b", "b", "b cb", "cb a", "cb b" -/
def sampleSwapped : Coll := [(5, [[97], [98], [98]]), (0, [[98]]), (7, [[98], [99, 98]]), (2, [[99, 98], [97]]), (4, [[99, 98], [98]])]

theorem sampleSwapped_valid : ValidColl sampleSwapped := ⟨by decide, by decide, by decide, by decide, by decide, by decide, by decide, by decide, by decide, by decide⟩

theorem sampleSwapped_renamed : Renamed swapAC sampleColl sampleSwapped := renamed_of (by decide)

theorem sampleSwapped_suits : Suits2 sampleSwapped :=
  { terms := ⟨_, sampleSwapped_valid.ready.numTerms, by decide +kernel⟩
    doc0 := ⟨[97], ⟨(2, [[99, 98], [97]]), by decide, by decide⟩, by
      have : ∀ r ∈ sampleSwapped, r.1 = 0 → [97] ∉ r.2 := by decide
      exact fun c hc => this _ hc rfl⟩
    count := by decide }

/-- the query "b", with all pairs of types from 1 to 3 and both searches -/
example (std : StdLib) {run run' : StdLib → Ask → Scratch → M Scratch} (hi : IsIndex sampleColl run) (hi' : IsIndex sampleSwapped run') (cj : Bool) : ∃ t res t' res',
    run std ⟨cj, [98], 3⟩ Scratch.fresh = .ok t ∧ t.pool.results = .ok res ∧ run' std ⟨cj, [98], 3⟩ Scratch.fresh = .ok t' ∧ t'.pool.results = .ok res' ∧
      res' = res.map fun r => (r.1, rename swapAC r.2) := by
  have ha : Ask.Ok ⟨cj, [98], 3⟩ := ⟨show IsText [98] by decide, show 1 ≤ 3 by decide, show 3 ≤ MAX_K by decide⟩
  obtain ⟨t, res, h1, h2⟩ := runs sampleColl_valid hi std _ ha (show 3 ≤ 8 by decide) .fresh
  obtain ⟨t', res', h3, h4⟩ := runs sampleSwapped_valid hi' std _ ha (show 3 ≤ 8 by decide) .fresh
  refine ⟨t, res, t', res', h1, h2, h3, h4, ?_⟩
  have hl : LastOk sampleColl (lastTerm [98]) := lastOk_of sampleColl_valid (by decide +kernel)
  have hl' : LastOk sampleSwapped (lastTerm [98]) := lastOk_of sampleSwapped_valid (by decide +kernel)
  cases cj with
  | true =>
      exact C101_conj_partial swapAC_renaming sampleSwapped_renamed sampleColl_valid sampleSwapped_valid hi hi' std std [98] 3 ha (by decide) hl hl' .fresh .fresh h1 h2 h3 h4
  | false =>
      exact C101_prefix_partial swapAC_renaming sampleSwapped_renamed sampleColl_valid sampleSwapped_valid hi hi' std std [98] 3 ha (by decide) hl hl'
        (firstApart_of (d := 4) (c := [[97, 98], [98]]) rfl (by decide) (by decide))
        (firstApart_of (d := 5) (c := [[97], [98], [98]]) rfl (by decide) (by decide)) .fresh .fresh h1 h2 h3 h4

/-- there are such indexes, of type 2 and type 1 -/
example (mem : Nat → W) : (∃ x : Index2, IsIndex sampleColl x.ask) ∧ ∃ x : Index1, IsIndex sampleSwapped x.ask := by
  obtain ⟨x, h1, _⟩ := Index2.exists sampleColl_valid.ready sampleColl_suits mem
  obtain ⟨x', h1', _⟩ := Index1.exists sampleSwapped_valid.ready sampleSwapped_suits.toSuits1 mem
  exact ⟨⟨x, .type2 sampleColl_suits h1⟩, ⟨x', .type1 sampleSwapped_suits.toSuits1 h1'⟩⟩

/-- the query "c" becomes "a", with type 1 -/
example (std : StdLib) (mem : Nat → W) : ∃ x x' : Index1, Index1.build (Pre.run sampleColl) mem = .ok x ∧ Index1.build (Pre.run sampleSwapped) mem = .ok x' ∧ ∃ t res t' res',
    x.ask std ⟨false, [99], 3⟩ Scratch.fresh = .ok t ∧ t.pool.results = .ok res ∧ x'.ask std ⟨false, [97], 3⟩ Scratch.fresh = .ok t' ∧ t'.pool.results = .ok res' ∧
      res' = res.map fun r => (r.1, rename swapAC r.2) := by
  obtain ⟨x, hb, _⟩ := Index1.exists sampleColl_valid.ready sampleColl_suits.toSuits1 mem
  obtain ⟨x', hb', _⟩ := Index1.exists sampleSwapped_valid.ready sampleSwapped_suits.toSuits1 mem
  have ha : Ask.Ok ⟨false, [99], 3⟩ := ⟨show IsText [99] by decide, show 1 ≤ 3 by decide, show 3 ≤ MAX_K by decide⟩
  have ha' : Ask.Ok ⟨false, [97], 3⟩ := ⟨show IsText [97] by decide, show 1 ≤ 3 by decide, show 3 ≤ MAX_K by decide⟩
  obtain ⟨t, res, h1, h2⟩ := runs sampleColl_valid (.type1 sampleColl_suits.toSuits1 hb) std _ ha (show 3 ≤ 8 by decide) .fresh
  obtain ⟨t', res', h3, h4⟩ := runs sampleSwapped_valid (.type1 sampleSwapped_suits.toSuits1 hb') std _ ha' (show 3 ≤ 8 by decide) .fresh
  exact ⟨x, x', hb, hb', t, res, t', res', h1, h2, h3, h4, C101_type1_partial swapAC_renaming sampleSwapped_renamed sampleColl_valid sampleSwapped_valid sampleColl_suits.toSuits1
    sampleSwapped_suits.toSuits1 hb hb' std std [99] 3 ha (by decide) (lastOk_of sampleColl_valid (by decide +kernel)) (lastOk_of sampleSwapped_valid (by decide +kernel))
    .fresh .fresh h1 h2 h3 h4⟩

theorem sampleSwapped_terms (t : Str) : IsTerm sampleSwapped t ↔ t ∈ [[97], [98], [99, 98]] := by
  unfold sampleSwapped
  simp only [IsTerm, List.mem_cons, List.not_mem_nil, or_false, exists_eq_or_imp, exists_eq_left]
  grind

/-- the query "b" with type 4 and blocks of at least 100 postings, both searches -/
example (std : StdLib) (mem : Nat → W) (cj : Bool) : ∃ x x' : Index4, Index4.build std 100 (Pre.run sampleColl) mem = .ok x ∧ Index4.build std 100 (Pre.run sampleSwapped) mem = .ok x' ∧
    ∃ t res t' res', x.ask std ⟨cj, [98], 3⟩ Scratch.fresh = .ok t ∧ t.pool.results = .ok res ∧ x'.ask std ⟨cj, [98], 3⟩ Scratch.fresh = .ok t' ∧ t'.pool.results = .ok res' ∧
      res' = res.map fun r => (r.1, rename swapAC r.2) := by
  have hw' : Suits4 sampleSwapped := ⟨sampleSwapped_suits.to3, by decide⟩
  obtain ⟨x, _, hb, _⟩ := Index4.exists sampleColl_valid.ready sampleColl_suits.to3 std 100 mem
  obtain ⟨x', _, hb', _⟩ := Index4.exists sampleSwapped_valid.ready sampleSwapped_suits.to3 std 100 mem
  have ha : Ask.Ok ⟨cj, [98], 3⟩ := ⟨show IsText [98] by decide, show 1 ≤ 3 by decide, show 3 ≤ MAX_K by decide⟩
  obtain ⟨t, h1⟩ := C36_type4_partial sampleColl_valid sampleColl_suits4 hb std _ ha (show 3 ≤ 8 by decide) .fresh
  obtain ⟨res, h2, _⟩ := C36_needed4 sampleColl_valid sampleColl_suits4 hb std _ ha .fresh h1
  obtain ⟨t', h3⟩ := C36_type4_partial sampleSwapped_valid hw' hb' std _ ha (show 3 ≤ 8 by decide) .fresh
  obtain ⟨res', h4, _⟩ := C36_needed4 sampleSwapped_valid hw' hb' std _ ha .fresh h3
  have hl : LastOk sampleColl (lastTerm [98]) := lastOk_of sampleColl_valid (by decide +kernel)
  have hl' : LastOk sampleSwapped (lastTerm [98]) := lastOk_of sampleSwapped_valid (by decide +kernel)
  refine ⟨x, x', hb, hb', t, res, t', res', h1, h2, h3, h4, ?_⟩
  cases cj with
  | true =>
      have hB' : IsBlocks sampleSwapped 100 [[[97], [98], [99, 98]]] := ⟨by decide, fun t => by rw [sampleSwapped_terms]; rfl, by decide, by decide, by decide⟩
      have hno : completeTerms [98] = [] := by decide
      exact C101_conj4_partial swapAC_renaming sampleSwapped_renamed sampleColl_valid sampleSwapped_valid sampleColl_suits4 hw' hb hb' sampleColl_blocks.2 hB' std std [98] 3 ha
        (by decide) hl hl'
        ⟨⟨_, List.mem_singleton.mpr rfl, fun y hy _ => (sampleColl_terms y).mp hy⟩, .inl (by rw [hno]; simp)⟩
        ⟨⟨_, List.mem_singleton.mpr rfl, fun y hy _ => (sampleSwapped_terms y).mp hy⟩, .inl (by
          rw [show completeTerms (rename swapAC [98]) = [] by decide]; simp)⟩ .fresh .fresh h1 h2 h3 h4
  | false =>
      exact C101_type4_partial swapAC_renaming sampleSwapped_renamed sampleColl_valid sampleSwapped_valid sampleColl_suits4 hw' hb hb' std std [98] 3 ha (by decide) hl hl'
        (firstApart_of (d := 4) (c := [[97, 98], [98]]) rfl (by decide) (by decide))
        (firstApart_of (d := 5) (c := [[97], [98], [98]]) rfl (by decide) (by decide)) .fresh .fresh h1 h2 h3 h4

/-- "ab", "car", "car dog", "dog" become "acr", "acr dog", "cb", "dog" -/
def carSwapped : Coll := [(0, [[97, 99, 114]]), (3, [[97, 99, 114], [100, 111, 103]]), (1, [[99, 98]]), (2, [[100, 111, 103]])]

theorem carSwapped_valid : ValidColl carSwapped := ⟨by decide, by decide, by decide, by decide, by decide, by decide, by decide, by decide, by decide, by decide⟩

theorem carSwapped_first : IsFirstTerm carSwapped [97, 99, 114] := by
  have : (Pre.run carSwapped).terms[0]'(by decide +kernel) = [97, 99, 114] := by decide +kernel
  rw [← this]
  exact (carSwapped_valid.ready.isFirst _).mpr rfl

theorem carSwapped_suits : Suits2 carSwapped :=
  { terms := ⟨_, carSwapped_valid.ready.numTerms, by decide +kernel⟩
    doc0 := ⟨[100, 111, 103], ⟨(2, [[100, 111, 103]]), by decide, by decide⟩, by
      have : ∀ r ∈ carSwapped, r.1 = 0 → [100, 111, 103] ∉ r.2 := by decide
      exact fun c hc => this _ hc rfl⟩
    count := by decide }

/-- the query "ca" becomes "ac": `C101_false` applies, with all pairs of types from 1 to 3 and both searches -/
example (std : StdLib) {run run' : StdLib → Ask → Scratch → M Scratch} (hi : IsIndex carColl run) (hi' : IsIndex carSwapped run') (cj : Bool) : ∃ t res t' res',
    run std ⟨cj, [99, 97], 3⟩ Scratch.fresh = .ok t ∧ t.pool.results = .ok res ∧ run' std ⟨cj, [97, 99], 3⟩ Scratch.fresh = .ok t' ∧ t'.pool.results = .ok res' ∧
      (0, [99, 97, 114]) ∈ res ∧ 0 ∉ res'.map (·.1) := by
  have ha : Ask.Ok ⟨cj, [99, 97], 3⟩ := ⟨show IsText [99, 97] by decide, show 1 ≤ 3 by decide, show 3 ≤ MAX_K by decide⟩
  have ha' : Ask.Ok ⟨cj, [97, 99], 3⟩ := ⟨show IsText [97, 99] by decide, show 1 ≤ 3 by decide, show 3 ≤ MAX_K by decide⟩
  obtain ⟨t, res, h1, h2⟩ := runs carColl_valid hi std _ ha (show 3 ≤ 8 by decide) .fresh
  obtain ⟨t', res', h3, h4⟩ := runs carSwapped_valid hi' std _ ha' (show 3 ≤ 8 by decide) .fresh
  exact ⟨t, res, t', res', h1, h2, h3, h4, C101_false swapAC_renaming (renamed_of (by decide)) carColl_valid carSwapped_valid hi hi' std std cj [99, 97] 3 ha (by decide)
    (u := [99, 97, 114]) carSwapped_first (by decide) (by decide) (by decide) (by decide) (by decide) (by decide) (by decide)
    (lastOk_of carColl_valid (by decide +kernel)) .fresh .fresh h1 h2 h3 h4⟩

/-- there are such indexes, of type 3 and type 2 -/
example (mem : Nat → W) : (∃ x : Index3, IsIndex carColl x.ask) ∧ ∃ x : Index2, IsIndex carSwapped x.ask := by
  obtain ⟨x, h1, _⟩ := Index3.exists carColl_valid.ready carColl_suits.to3 mem
  obtain ⟨x', h1', _⟩ := Index2.exists carSwapped_valid.ready carSwapped_suits mem
  exact ⟨⟨x, .type3 carColl_suits.to3 h1⟩, ⟨x', .type2 carSwapped_suits h1'⟩⟩

/-- "ab", "car dog", "dog", "e" become "acr dog", "cb", "dog", "e" -/
def dogSwapped : Coll := [(0, [[97, 99, 114], [100, 111, 103]]), (1, [[99, 98]]), (2, [[100, 111, 103]]), (3, [[101]])]

theorem dogSwapped_valid : ValidColl dogSwapped := ⟨by decide, by decide, by decide, by decide, by decide, by decide, by decide, by decide, by decide, by decide⟩

theorem dogSwapped_suits : Suits2 dogSwapped :=
  { terms := ⟨_, dogSwapped_valid.ready.numTerms, by decide +kernel⟩
    doc0 := ⟨[101], ⟨(3, [[101]]), by decide, by decide⟩, by
      have : ∀ r ∈ dogSwapped, r.1 = 0 → [101] ∉ r.2 := by decide
      exact fun c hc => this _ hc rfl⟩
    count := by decide }

/-- the query "car" becomes "acr": `C101_false_first` applies -/
example (std : StdLib) {run : StdLib → Ask → Scratch → M Scratch} (hi : IsIndex dogColl run) (mem : Nat → W) : ∃ x' : Index2, Index2.build (Pre.run dogSwapped) mem = .ok x' ∧
    ∃ t res t' res', run std ⟨false, [99, 97, 114], 3⟩ Scratch.fresh = .ok t ∧ t.pool.results = .ok res ∧ x'.ask std ⟨false, [97, 99, 114], 3⟩ Scratch.fresh = .ok t' ∧
      t'.pool.results = .ok res' ∧ (0, [99, 97, 114, 32, 100, 111, 103]) ∈ res ∧ 0 ∉ res'.map (·.1) := by
  obtain ⟨x', hx', _⟩ := Index2.exists dogSwapped_valid.ready dogSwapped_suits mem
  have ha : Ask.Ok ⟨false, [99, 97, 114], 3⟩ := ⟨show IsText [99, 97, 114] by decide, show 1 ≤ 3 by decide, show 3 ≤ MAX_K by decide⟩
  have ha' : Ask.Ok ⟨false, [97, 99, 114], 3⟩ := ⟨show IsText [97, 99, 114] by decide, show 1 ≤ 3 by decide, show 3 ≤ MAX_K by decide⟩
  obtain ⟨t, res, h1, h2⟩ := runs dogColl_valid hi std _ ha (show 3 ≤ 8 by decide) .fresh
  obtain ⟨t', res', h3, h4⟩ := runs dogSwapped_valid (.type2 dogSwapped_suits hx') std _ ha' (show 3 ≤ 8 by decide) .fresh
  exact ⟨x', hx', t, res, t', res', h1, h2, h3, h4, C101_false_first swapAC_renaming (renamed_of (by decide)) dogColl_valid dogSwapped_valid hi
    (.inl ⟨mem, x', dogSwapped_suits, hx', rfl⟩) std std [99, 97, 114] 3 ha (by decide)
    (c := [[99, 97, 114], [100, 111, 103]]) (d := 0) (by decide) (by decide) (by decide) (by decide) (lastOk_of dogColl_valid (by decide +kernel))
    ⟨[99, 97, 114], by decide, by decide⟩ (by decide) .fresh .fresh h1 h2 h3 h4⟩

/-- the letters after the space are moved by one -/
def nextLetter (x : Nat) : Nat := if x ≤ 32 then x else x + 1

theorem nextLetter_ordered : Ordered nextLetter := ⟨fun a b h => by unfold nextLetter; split <;> split <;> omega, rfl⟩

/-- the query "a", which is a beginning of the first term of the sample, becomes "b", with type 2 and both searches -/
example (std : StdLib) (mem : Nat → W) (cj : Bool) : ∃ x x' : Index2, Index2.build (Pre.run sampleColl) mem = .ok x ∧ Index2.build (Pre.run (renameColl nextLetter sampleColl)) mem = .ok x' ∧
    ∃ t res t' res', x.ask std ⟨cj, [97], 3⟩ Scratch.fresh = .ok t ∧ t.pool.results = .ok res ∧ x'.ask std ⟨cj, [98], 3⟩ Scratch.fresh = .ok t' ∧ t'.pool.results = .ok res' ∧
      res' = res.map fun r => (r.1, rename nextLetter r.2) := by
  have ht : ∀ r ∈ sampleColl, ∀ t ∈ r.2, IsText (rename nextLetter t) := by decide
  obtain ⟨hv, _, hs2, _⟩ := C101_valid nextLetter_ordered sampleColl_valid ht
  have hw' := hs2 sampleColl_suits
  obtain ⟨x, hb, _⟩ := Index2.exists sampleColl_valid.ready sampleColl_suits mem
  obtain ⟨x', hb', _⟩ := Index2.exists hv.ready hw' mem
  have ha : Ask.Ok ⟨cj, [97], 3⟩ := ⟨show IsText [97] by decide, show 1 ≤ 3 by decide, show 3 ≤ MAX_K by decide⟩
  have ha' : Ask.Ok ⟨cj, [98], 3⟩ := ⟨show IsText [98] by decide, show 1 ≤ 3 by decide, show 3 ≤ MAX_K by decide⟩
  obtain ⟨t, res, h1, h2⟩ := runs sampleColl_valid (.type2 sampleColl_suits hb) std _ ha (show 3 ≤ 8 by decide) .fresh
  obtain ⟨t', res', h3, h4⟩ := runs hv (.type2 hw' hb') std _ ha' (show 3 ≤ 8 by decide) .fresh
  exact ⟨x, x', hb, hb', t, res, t', res', h1, h2, h3, h4, C101_ordered nextLetter_ordered sampleColl_valid ht (.type2 sampleColl_suits hw' hb hb') std std _ ha (show IsText [98] by decide)
    .fresh .fresh h1 h2 h3 h4⟩

/-- the same with type 4 and prefix search -/
example (std : StdLib) (mem : Nat → W) : ∃ x x' : Index4, Index4.build std 2 (Pre.run sampleColl) mem = .ok x ∧ Index4.build std 3 (Pre.run (renameColl nextLetter sampleColl)) mem = .ok x' ∧
    ∃ t res t' res', x.ask std ⟨false, [97], 3⟩ Scratch.fresh = .ok t ∧ t.pool.results = .ok res ∧ x'.ask std ⟨false, [98], 3⟩ Scratch.fresh = .ok t' ∧ t'.pool.results = .ok res' ∧
      res' = res.map fun r => (r.1, rename nextLetter r.2) := by
  have ht : ∀ r ∈ sampleColl, ∀ t ∈ r.2, IsText (rename nextLetter t) := by decide
  obtain ⟨hv, _, _, hs3⟩ := C101_valid nextLetter_ordered sampleColl_valid ht
  have hw' : Suits4 (renameColl nextLetter sampleColl) := ⟨hs3 sampleColl_suits.to3, by decide⟩
  obtain ⟨x, _, hb, _⟩ := Index4.exists sampleColl_valid.ready sampleColl_suits.to3 std 2 mem
  obtain ⟨x', _, hb', _⟩ := Index4.exists hv.ready hw'.toSuits3 std 3 mem
  have ha : Ask.Ok ⟨false, [97], 3⟩ := ⟨show IsText [97] by decide, show 1 ≤ 3 by decide, show 3 ≤ MAX_K by decide⟩
  have ha' : Ask.Ok ⟨false, [98], 3⟩ := ⟨show IsText [98] by decide, show 1 ≤ 3 by decide, show 3 ≤ MAX_K by decide⟩
  obtain ⟨t, h1⟩ := C36_type4_partial sampleColl_valid sampleColl_suits4 hb std _ ha (show 3 ≤ 8 by decide) .fresh
  obtain ⟨res, h2, _⟩ := C36_needed4 sampleColl_valid sampleColl_suits4 hb std _ ha .fresh h1
  obtain ⟨t', h3⟩ := C36_type4_partial hv hw' hb' std _ ha' (show 3 ≤ 8 by decide) .fresh
  obtain ⟨res', h4, _⟩ := C36_needed4 hv hw' hb' std _ ha' .fresh h3
  exact ⟨x, x', hb, hb', t, res, t', res', h1, h2, h3, h4, C101_ordered4 nextLetter_ordered sampleColl_valid ht sampleColl_suits4 hw' hb hb' std std [97] 3 ha (by decide)
    .fresh .fresh h1 h2 h3 h4⟩

end AC.Props
