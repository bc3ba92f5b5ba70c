import Verif.Props.Removal
import Verif.Proofs.Renumber
import Verif.Spec.Shards
/-!
# C97: the index of a collection in parts
-/
namespace AC.Props
open AC Spec

/-- the parts of a collection, which may overlap -/
def PartsOf {ι : Type} (C : Coll) (D : ι → Coll) : Prop := ∀ r, r ∈ C ↔ ∃ i, r ∈ D i

section
variable {ι : Type} {C : Coll} {D : ι → Coll} {run : StdLib → Ask → Scratch → M Scratch} {runs' : ι → StdLib → Ask → Scratch → M Scratch}

theorem mergeOf (hD : PartsOf C D) {P : List Str → Prop} {Q : ι → List Str → Prop} {k : Nat} {E : Coll} {E' : ι → Coll} (b : Spec.Best C P k E)
    (b' : ∀ i, Spec.Best (D i) (Q i) k (E' i)) (hPQ : ∀ i, ∀ r ∈ D i, P r.2 ↔ Q i r.2) : MergeOf k (fun i => (E' i).map shown) (E.map shown) := by
  refine ⟨?_, ?_, by rw [List.length_map]; exact b.le, ?_⟩
  · intro e he
    obtain ⟨r, hr, rfl⟩ := List.mem_map.mp he
    obtain ⟨hrC, hp⟩ := b.sound r hr
    obtain ⟨i, hi⟩ := (hD r).mp hrC
    refine ⟨i, List.mem_map.mpr ⟨r, ?_, rfl⟩⟩
    apply Classical.byContradiction
    intro hn
    obtain ⟨h1, h2⟩ := (b' i).complete r hi ((hPQ i r hi).mp hp) hn
    have hle : (r :: E' i).length ≤ E.length := by
      apply nodup_subset_length'
      · exact List.nodup_cons.mpr ⟨hn, (b' i).nodup⟩
      · intro f hf
        rcases List.mem_cons.mp hf with rfl | hf
        · exact hr
        · obtain ⟨g1, g2⟩ := (b' i).sound f hf
          apply Classical.byContradiction
          intro hm
          have := (b.complete f ((hD f).mpr ⟨i, g1⟩) ((hPQ i f g1).mpr g2) hm).2 r hr
          have := h2 f hf
          omega
    have := b.le
    rw [List.length_cons] at hle
    omega
  · exact List.pairwise_map.mpr b.sorted
  · intro i e he hn
    obtain ⟨r, hr, rfl⟩ := List.mem_map.mp he
    obtain ⟨g1, g2⟩ := (b' i).sound r hr
    obtain ⟨h1, h2⟩ := b.complete r ((hD r).mpr ⟨i, g1⟩) ((hPQ i r g1).mpr g2) (fun hm => hn (List.mem_map.mpr ⟨r, hm, rfl⟩))
    refine ⟨by rw [List.length_map]; exact h1, ?_⟩
    intro f hf
    obtain ⟨f', hf', rfl⟩ := List.mem_map.mp hf
    exact h2 f' hf'

/-- **C97**: the results of the whole are determined by those of the parts: there is at most one merge. -/
theorem C97_unique {parts : ι → List (Nat × Str)} {k : Nat} {res res' : List (Nat × Str)} (h : MergeOf k parts res) (h' : MergeOf k parts res') : res = res' := by
  have half : ∀ {res res' : List (Nat × Str)}, MergeOf k parts res → MergeOf k parts res' → ∀ e ∈ res, e ∈ res' := by
    intro res res' h h' e he
    apply Classical.byContradiction
    intro hn
    obtain ⟨i, hi⟩ := h.sound e he
    obtain ⟨g1, g2⟩ := h'.complete i e hi hn
    have hle : (e :: res').length ≤ res.length := by
      apply nodup_subset_length'
      · exact List.nodup_cons.mpr ⟨hn, h'.sorted.imp (fun hlt e => by rw [e] at hlt; omega)⟩
      · intro f hf
        rcases List.mem_cons.mp hf with rfl | hf
        · exact he
        · obtain ⟨j, hj⟩ := h'.sound f hf
          apply Classical.byContradiction
          intro hm
          have := (h.complete j f hj hm).2 e he
          have := g2 f hf
          omega
    have := h.le
    rw [List.length_cons] at hle
    omega
  exact eq_of_ordered (R := fun a b : Nat × Str => a.1 < b.1) (fun _ _ h => by omega) h.sorted h'.sorted (fun e => ⟨half h h' e, half h' h e⟩)

/-- **C97**, types 1, 2 and 3 (the indexes may be of different types), prefix search: the results of the index of the whole collection are those of the indexes of its parts, merged.
Missing from the claim: queries that end with a strict beginning of a first term, or that a first completion matches (`C97_false_first`). -/
theorem C97_prefix_partial (hC : ValidColl C) (hDv : ∀ i, ValidColl (D i)) (hD : PartsOf C D) (hi : IsIndex C run) (hi' : ∀ i, IsIndex (D i) (runs' i)) (std : StdLib)
    (std' : ι → StdLib) (q : Str) (k : Nat) (ha : Ask.Ok ⟨false, q, k⟩) (hl : LastOk C (lastTerm q)) (hl' : ∀ i, LastOk (D i) (lastTerm q)) (hf : FirstApart C q)
    (hf' : ∀ i, FirstApart (D i) q) {s t : Scratch} {s' t' : ι → Scratch} {res : List (Nat × Str)} {res' : ι → List (Nat × Str)} (hs : Visited run s)
    (hs' : ∀ i, Visited (runs' i) (s' i)) (h1 : run std ⟨false, q, k⟩ s = .ok t) (h2 : t.pool.results = .ok res)
    (h3 : ∀ i, runs' i (std' i) ⟨false, q, k⟩ (s' i) = .ok (t' i)) (h4 : ∀ i, (t' i).pool.results = .ok (res' i)) : MergeOf k res' res := by
  obtain ⟨_, hp, h⟩ := hi.serves hC
  obtain ⟨E, b, e1, _⟩ := (h std _ s ha (hs.wf h)).cases h1
  rw [h2] at e1
  cases e1
  have hE : ∀ i, ∃ E', Spec.Best (D i) (PrefixMatch (completeTerms q) (lastTerm q)) k E' ∧ res' i = E'.map shown := by
    intro i
    obtain ⟨_, hp', h'⟩ := (hi' i).serves (hDv i)
    obtain ⟨E', b', e1', _⟩ := (h' (std' i) _ (s' i) ha ((hs' i).wf h')).cases (h3 i)
    rw [h4 i] at e1'
    injection e1' with e1'
    have : foundBy (D i) _ ⟨false, q, k⟩ = PrefixMatch (completeTerms q) (lastTerm q) := funext fun c => propext (pre_iff (hl' i) (hf' i) hp' k c)
    rw [this] at b'
    exact ⟨E', b', e1'⟩
  obtain ⟨E', hE'⟩ := Classical.axiomOfChoice hE
  rw [show res' = fun i => (E' i).map shown from funext fun i => (hE' i).2]
  exact mergeOf hD b (fun i => (hE' i).1) (fun i r _ => pre_iff hl hf hp k r.2)

/-- **C97**, types 1, 2 and 3 (the indexes may be of different types), conjunctive search. Missing from the claim: queries that end with a strict beginning of a first term, and complete
terms that only some of the parts have (`C97_false`). -/
theorem C97_conj_partial (hC : ValidColl C) (hDv : ∀ i, ValidColl (D i)) (hD : PartsOf C D) (hi : IsIndex C run) (hi' : ∀ i, IsIndex (D i) (runs' i)) (std : StdLib)
    (std' : ι → StdLib) (q : Str) (k : Nat) (ha : Ask.Ok ⟨true, q, k⟩) (hl : LastOk C (lastTerm q)) (hl' : ∀ i, LastOk (D i) (lastTerm q))
    (hkn : ∀ t ∈ completeTerms q, IsTerm C t → ∀ i, IsTerm (D i) t) {s t : Scratch} {s' t' : ι → Scratch} {res : List (Nat × Str)} {res' : ι → List (Nat × Str)} (hs : Visited run s)
    (hs' : ∀ i, Visited (runs' i) (s' i)) (h1 : run std ⟨true, q, k⟩ s = .ok t) (h2 : t.pool.results = .ok res)
    (h3 : ∀ i, runs' i (std' i) ⟨true, q, k⟩ (s' i) = .ok (t' i)) (h4 : ∀ i, (t' i).pool.results = .ok (res' i)) : MergeOf k res' res := by
  obtain ⟨_, _, h⟩ := hi.serves hC
  obtain ⟨E, b, e1, _⟩ := (h std _ s ha (hs.wf h)).cases h1
  rw [h2] at e1
  cases e1
  have hE : ∀ i, ∃ E', Spec.Best (D i) (ConjFound (D i) (completeTerms q) (lastTerm q)) k E' ∧ res' i = E'.map shown := by
    intro i
    obtain ⟨_, _, h'⟩ := (hi' i).serves (hDv i)
    obtain ⟨E', b', e1', _⟩ := (h' (std' i) _ (s' i) ha ((hs' i).wf h')).cases (h3 i)
    rw [h4 i] at e1'
    injection e1' with e1'
    exact ⟨E', b', e1'⟩
  obtain ⟨E', hE'⟩ := Classical.axiomOfChoice hE
  rw [show res' = fun i => (E' i).map shown from funext fun i => (hE' i).2]
  refine mergeOf hD b (fun i => (hE' i).1) (fun i r hr => ?_)
  show ConjFound C (completeTerms q) (lastTerm q) r.2 ↔ _
  rw [ConjFound_iff hl, ConjFound_iff (hl' i)]
  constructor
  · rintro ⟨g1, g2⟩
    exact ⟨fun t ht ⟨r', hr', ht'⟩ => g1 t ht ⟨r', (hD r').mpr ⟨i, hr'⟩, ht'⟩, g2⟩
  · rintro ⟨g1, g2⟩
    exact ⟨fun t ht ht' => g1 t ht (hkn t ht ht' i), g2⟩

/-- **C97**, type 4, prefix search, like types 2 and 3 (the block sizes may be different). Missing from the claim: what is missing with types 2 and 3. -/
theorem C97_type4_partial (hC : ValidColl C) (hDv : ∀ i, ValidColl (D i)) (hD : PartsOf C D) (hw : Suits4 C) (hw' : ∀ i, Suits4 (D i)) {std₀ : StdLib} {std₀' : ι → StdLib} {m : Nat}
    {m' : ι → Nat} {mem : Nat → W} {mem' : ι → Nat → W} {x : Index4} {x' : ι → Index4} (hb : Index4.build std₀ m (Pre.run C) mem = .ok x)
    (hb' : ∀ i, Index4.build (std₀' i) (m' i) (Pre.run (D i)) (mem' i) = .ok (x' i)) (std : StdLib)
    (std' : ι → StdLib) (q : Str) (k : Nat) (ha : Ask.Ok ⟨false, q, k⟩) (hl : LastOk C (lastTerm q)) (hl' : ∀ i, LastOk (D i) (lastTerm q)) (hf : FirstApart C q)
    (hf' : ∀ i, FirstApart (D i) q) {s t : Scratch} {s' t' : ι → Scratch} {res : List (Nat × Str)} {res' : ι → List (Nat × Str)} (hs : Visited x.ask s)
    (hs' : ∀ i, Visited (x' i).ask (s' i)) (h1 : x.ask std ⟨false, q, k⟩ s = .ok t) (h2 : t.pool.results = .ok res)
    (h3 : ∀ i, (x' i).ask (std' i) ⟨false, q, k⟩ (s' i) = .ok (t' i)) (h4 : ∀ i, (t' i).pool.results = .ok (res' i)) : MergeOf k res' res := by
  obtain ⟨_, hx⟩ := Index4.rep_of_build hC hw.toSuits3 hb
  obtain ⟨E, b, e1, _⟩ := (Base.prefix_spec std hC.ready hx.base hx.dict hx.built ha.1 ha.2.1 ha.2.2 (type4_wf hC hw hb hs)).cases h1
  rw [h2] at e1
  cases e1
  have hE : ∀ i, ∃ E', Spec.Best (D i) (PrefixFound2 (D i) (completeTerms q) (lastTerm q)) k E' ∧ res' i = E'.map shown := by
    intro i
    obtain ⟨_, hx'⟩ := Index4.rep_of_build (hDv i) (hw' i).toSuits3 (hb' i)
    obtain ⟨E', b', e1', _⟩ := (Base.prefix_spec (std' i) (hDv i).ready hx'.base hx'.dict hx'.built ha.1 ha.2.1 ha.2.2 (type4_wf (hDv i) (hw' i) (hb' i) (hs' i))).cases (h3 i)
    rw [h4 i] at e1'
    injection e1' with e1'
    exact ⟨E', b', e1'⟩
  obtain ⟨E', hE'⟩ := Classical.axiomOfChoice hE
  rw [show res' = fun i => (E' i).map shown from funext fun i => (hE' i).2]
  exact mergeOf hD b (fun i => (hE' i).1) (fun i r _ => (prefixFound2_iff hl hf r.2).trans (prefixFound2_iff (hl' i) (hf' i) r.2).symm)

/-- **C97**, type 4, conjunctive search (the block sizes may be different). Missing from the claim: besides what is missing for the other types, queries that type 4 does not answer
completely (C06). -/
theorem C97_conj4_partial (hC : ValidColl C) (hDv : ∀ i, ValidColl (D i)) (hD : PartsOf C D) (hw : Suits4 C) (hw' : ∀ i, Suits4 (D i)) {std₀ : StdLib} {std₀' : ι → StdLib} {m : Nat}
    {m' : ι → Nat} {mem : Nat → W} {mem' : ι → Nat → W} {x : Index4} {x' : ι → Index4} (hb : Index4.build std₀ m (Pre.run C) mem = .ok x)
    (hb' : ∀ i, Index4.build (std₀' i) (m' i) (Pre.run (D i)) (mem' i) = .ok (x' i)) {B : List (List Str)} {B' : ι → List (List Str)} (hB : IsBlocks C m B)
    (hB' : ∀ i, IsBlocks (D i) (m' i) (B' i)) (std : StdLib) (std' : ι → StdLib) (q : Str) (k : Nat) (ha : Ask.Ok ⟨true, q, k⟩) (hl : LastOk C (lastTerm q))
    (hl' : ∀ i, LastOk (D i) (lastTerm q)) (hkn : ∀ t ∈ completeTerms q, IsTerm C t → ∀ i, IsTerm (D i) t) (hq : Complete4 C B q) (hq' : ∀ i, Complete4 (D i) (B' i) q)
    {s t : Scratch} {s' t' : ι → Scratch} {res : List (Nat × Str)} {res' : ι → List (Nat × Str)} (hs : Visited x.ask s)
    (hs' : ∀ i, Visited (x' i).ask (s' i)) (h1 : x.ask std ⟨true, q, k⟩ s = .ok t) (h2 : t.pool.results = .ok res)
    (h3 : ∀ i, (x' i).ask (std' i) ⟨true, q, k⟩ (s' i) = .ok (t' i)) (h4 : ∀ i, (t' i).pool.results = .ok (res' i)) : MergeOf k res' res := by
  obtain ⟨_, hx⟩ := Index4.rep_of_build hC hw.toSuits3 hb
  obtain ⟨S, r1, r2⟩ := Index4.conj_spec hC.ready std hx hw.ids ha.1
  rw [C06_blocks_unique (hC.ready.blocks hx.inverted.cut) hB] at r1
  have e := (r2 q ha.1 rfl (fun _ => Iff.rfl) k ha.2.1 ha.2.2 s (type4_wf hC hw hb hs)).results h1 h2
  subst e
  have b := r1.best hC hB hl hq.1 hq.2 k
  have hE : ∀ i, ∃ E', Spec.Best (D i) (ConjMatch (D i) (completeTerms q) (lastTerm q)) k E' ∧ res' i = E'.map shown := by
    intro i
    obtain ⟨_, hx'⟩ := Index4.rep_of_build (hDv i) (hw' i).toSuits3 (hb' i)
    obtain ⟨S', r1', r2'⟩ := Index4.conj_spec (hDv i).ready (std' i) hx' (hw' i).ids ha.1
    rw [C06_blocks_unique ((hDv i).ready.blocks hx'.inverted.cut) (hB' i)] at r1'
    exact ⟨_, r1'.best (hDv i) (hB' i) (hl' i) (hq' i).1 (hq' i).2 k,
      (r2' q ha.1 rfl (fun _ => Iff.rfl) k ha.2.1 ha.2.2 (s' i) (type4_wf (hDv i) (hw' i) (hb' i) (hs' i))).results (h3 i) (h4 i)⟩
  obtain ⟨E', hE'⟩ := Classical.axiomOfChoice hE
  rw [show res' = fun i => (E' i).map shown from funext fun i => (hE' i).2]
  refine mergeOf hD b (fun i => (hE' i).1) (fun i r hr => ?_)
  constructor
  · rintro ⟨g1, g2⟩
    exact ⟨fun t ht ⟨r', hr', ht'⟩ => g1 t ht ⟨r', (hD r').mpr ⟨i, hr'⟩, ht'⟩, g2⟩
  · rintro ⟨g1, g2⟩
    exact ⟨fun t ht ht' => g1 t ht (hkn t ht ht' i), g2⟩

/-- **C97 is false**, conjunctive search: a part that does not have a complete term of the query ignores it, and shows its best completion with the last term; the index of the whole
collection does not, so that the results cannot be merged. -/
theorem C97_false (hC : ValidColl C) (hDv : ∀ i, ValidColl (D i)) (hD : PartsOf C D) (hi : IsIndex C run) (hi' : ∀ i, IsIndex (D i) (runs' i)) (std : StdLib)
    (std' : ι → StdLib) (q : Str) (k : Nat) (ha : Ask.Ok ⟨true, q, k⟩) {i : ι} {u : Str} (hu : u ∈ completeTerms q) (huC : IsTerm C u) (huD : ∀ t ∈ completeTerms q, ¬ IsTerm (D i) t)
    (hl' : LastOk (D i) (lastTerm q)) {d : Nat} {c : List Str} (hc : (d, c) ∈ D i) (hmin : ∀ r ∈ C, d ≤ r.1) (hx : ∃ x ∈ c, lastTerm q <+: x)
    {s t : Scratch} {s' t' : ι → Scratch} {res : List (Nat × Str)} {res' : ι → List (Nat × Str)} (hs : Visited run s)
    (hs' : ∀ i, Visited (runs' i) (s' i)) (h1 : run std ⟨true, q, k⟩ s = .ok t) (h2 : t.pool.results = .ok res)
    (h3 : ∀ i, runs' i (std' i) ⟨true, q, k⟩ (s' i) = .ok (t' i)) (h4 : ∀ i, (t' i).pool.results = .ok (res' i)) :
    (d, joined c) ∈ res' i ∧ d ∉ res.map (·.1) ∧ ¬ MergeOf k res' res := by
  obtain ⟨_, _, h⟩ := hi.serves hC
  obtain ⟨E, b, e1, _⟩ := (h std _ s ha (hs.wf h)).cases h1
  obtain ⟨_, _, h'⟩ := (hi' i).serves (hDv i)
  obtain ⟨E', b', e1', _⟩ := (h' (std' i) _ (s' i) ha ((hs' i).wf h')).cases (h3 i)
  rw [h2] at e1
  rw [h4 i] at e1'
  cases e1
  injection e1' with e1'
  have hcC : (d, c) ∈ C := (hD _).mpr ⟨i, hc⟩
  have hin : (d, joined c) ∈ res' i := by
    rw [e1']
    obtain ⟨x, hx1, hx2⟩ := hx
    exact shown_of_min b' ha.2.1 (r := (d, c)) hc ((ConjFound_iff hl' c).mpr ⟨fun t ht ht' => absurd ht' (huD t ht), x, hx1, hx2⟩) (fun r hr => hmin r ((hD r).mpr ⟨i, hr⟩))
  have hout : d ∉ (E.map shown).map (·.1) := by
    refine not_shown hC b (r := (d, c)) hcC ?_
    intro hf
    exact huD u hu ⟨_, hc, (show ConjFound C (completeTerms q) (lastTerm q) c from hf).1 u hu huC⟩
  refine ⟨hin, hout, fun hm => ?_⟩
  obtain ⟨g1, g2⟩ := hm.complete i _ hin (fun hm' => hout (List.mem_map.mpr ⟨_, hm', rfl⟩))
  cases hE : E with
  | nil =>
      rw [hE] at g1
      have : 1 ≤ k := ha.2.1
      simp at g1
      omega
  | cons r E₁ =>
      rw [hE] at g2
      have := g2 (shown r) (by simp)
      have := hmin r (b.sound r (by rw [hE]; simp)).1
      simp only [shown] at *
      omega

/-- **C97 is false**, prefix search: the best completion is a single term, which is the first one of a part but not of the whole collection. It is among the results of the index of the
whole collection for a strict beginning of it, and not among those of this part; so the results are not those of the parts merged, unless another part has this completion. -/
theorem C97_false_first (hC : ValidColl C) (hDv : ∀ i, ValidColl (D i)) (hi : IsIndex C run) (hi' : ∀ i, IsIndex (D i) (runs' i)) (std : StdLib)
    (std' : ι → StdLib) (cj : Bool) (q : Str) (k : Nat) (ha : Ask.Ok ⟨cj, q, k⟩) {i : ι} {u : Str} {d : Nat} (hu : IsFirstTerm (D i) u) (hc : (d, [u]) ∈ C) (hd : (d, [u]) ∈ D i)
    (honly : ∀ j, j ≠ i → ∀ c, (d, c) ∉ D j) (hmin : ∀ r ∈ C, d ≤ r.1) (hhead : C.head? ≠ some (d, [u]))
    (hsp : space ∉ q) (hne : q ≠ []) (hqu : q <+: u) (hnu : q ≠ u) (hl : LastOk C q)
    {s t : Scratch} {s' t' : ι → Scratch} {res : List (Nat × Str)} {res' : ι → List (Nat × Str)} (hs : Visited run s)
    (hs' : ∀ i, Visited (runs' i) (s' i)) (h1 : run std ⟨cj, q, k⟩ s = .ok t) (h2 : t.pool.results = .ok res)
    (h3 : ∀ i, runs' i (std' i) ⟨cj, q, k⟩ (s' i) = .ok (t' i)) (h4 : ∀ i, (t' i).pool.results = .ok (res' i)) : (d, u) ∈ res ∧ (∀ j, d ∉ (res' j).map (·.1)) ∧ ¬ MergeOf k res' res := by
  obtain ⟨g1, g2⟩ := C94_false hC (hDv i) hi (hi' i) std (std' i) cj q k ha hu hc hd hmin hhead hsp hne hqu hnu hl hs (hs' i) h1 h2 (h3 i) (h4 i)
  have hno : ∀ j, d ∉ (res' j).map (·.1) := by
    intro j
    by_cases hj : j = i
    · rw [hj]; exact g2
    · intro hm
      obtain ⟨_, _, h'⟩ := (hi' j).serves (hDv j)
      obtain ⟨E', b', e1', _⟩ := (h' (std' j) _ (s' j) ha ((hs' j).wf h')).cases (h3 j)
      rw [h4 j] at e1'
      injection e1' with e1'
      rw [e1'] at hm
      obtain ⟨e, he, hd'⟩ := List.mem_map.mp hm
      obtain ⟨r, hr, rfl⟩ := List.mem_map.mp he
      have := (b'.sound r hr).1
      exact honly j hj r.2 (by rw [← hd']; exact this)
  refine ⟨g1, hno, fun hm => ?_⟩
  obtain ⟨j, hj⟩ := hm.sound _ g1
  exact hno j (List.mem_map.mpr ⟨_, hj, rfl⟩)

end

/-- the sample in two parts: the completions with an even document id, and those with an odd one -/
def sampleParts (even : Bool) : Coll := sampleColl.filter (fun r => r.1 % 2 == cond even 0 1)

theorem partsOf_filter (C : Coll) (p : Bool → Nat × List Str → Bool) (h : ∀ r, p true r = true ∨ p false r = true) : PartsOf C (fun i => C.filter (p i)) := by
  intro r
  constructor
  · intro hr
    rcases h r with h | h
    · exact ⟨true, List.mem_filter.mpr ⟨hr, h⟩⟩
    · exact ⟨false, List.mem_filter.mpr ⟨hr, h⟩⟩
  · rintro ⟨i, hr⟩
    exact (List.mem_filter.mp hr).1

theorem sampleParts_of : PartsOf sampleColl sampleParts :=
  partsOf_filter sampleColl (fun even r => r.1 % 2 == cond even 0 1) (by
    intro r
    simp only [cond_true, cond_false, beq_iff_eq]
    omega)

theorem sampleParts_valid (i : Bool) : ValidColl (sampleParts i) := C94_valid sampleColl_valid _ (by cases i <;> decide)

theorem sampleParts_suits (i : Bool) : Suits2 (sampleParts i) := by
  cases i with
  | true =>
      exact
        { terms := ⟨_, (sampleParts_valid true).ready.numTerms, by decide +kernel⟩
          doc0 := ⟨[97, 98], ⟨(4, [[97, 98], [98]]), by decide, by decide⟩, by
            have : ∀ r ∈ sampleParts true, r.1 = 0 → [97, 98] ∉ r.2 := by decide
            exact fun c hc => this _ hc rfl⟩
          count := by decide }
  | false =>
      exact
        { terms := ⟨_, (sampleParts_valid false).ready.numTerms, by decide +kernel⟩
          doc0 := ⟨[97, 98], ⟨(7, [[98], [97, 98]]), by decide, by decide⟩, by
            have : ∀ r ∈ sampleParts false, r.1 = 0 → [97, 98] ∉ r.2 := by decide
            exact fun c hc => this _ hc rfl⟩
          count := by decide }

/-- the parts' indexes may be of different types -/
example (mem : Nat → W) : ∃ run : Bool → StdLib → Ask → Scratch → M Scratch, ∀ i, IsIndex (sampleParts i) (run i) := by
  obtain ⟨x, h1, _⟩ := Index2.exists (sampleParts_valid true).ready (sampleParts_suits true) mem
  obtain ⟨x', h1', _⟩ := Index1.exists (sampleParts_valid false).ready (sampleParts_suits false).toSuits1 mem
  refine ⟨fun i => match i with | true => x.ask | false => x'.ask, fun i => ?_⟩
  cases i with
  | true => exact .type2 (sampleParts_suits true) h1
  | false => exact .type1 (sampleParts_suits false).toSuits1 h1'

theorem sampleParts_apart (i : Bool) : FirstApart (sampleParts i) [99] := by
  cases i with
  | true => exact firstApart_of (d := 4) (c := [[97, 98], [98]]) rfl (by decide) (by decide)
  | false => exact firstApart_of (d := 7) (c := [[98], [97, 98]]) rfl (by decide) (by decide)

/-- the queries "c" (both searches) meet the hypotheses -/
example (std : StdLib) {run : StdLib → Ask → Scratch → M Scratch} {run' : Bool → StdLib → Ask → Scratch → M Scratch} (hi : IsIndex sampleColl run) (hi' : ∀ i, IsIndex (sampleParts i) (run' i))
    (cj : Bool) : ∃ t res, run std ⟨cj, [99], 3⟩ Scratch.fresh = .ok t ∧ t.pool.results = .ok res ∧ ∃ (t' : Bool → Scratch) (res' : Bool → List (Nat × Str)), (∀ i, run' i std ⟨cj, [99], 3⟩ Scratch.fresh = .ok (t' i)) ∧
      (∀ i, (t' i).pool.results = .ok (res' i)) ∧ MergeOf 3 res' res := by
  have ha : Ask.Ok ⟨cj, [99], 3⟩ := ⟨show IsText [99] by decide, show 1 ≤ 3 by decide, show 3 ≤ MAX_K by decide⟩
  obtain ⟨t, res, h1, h2⟩ := runs sampleColl_valid hi std _ ha (show 3 ≤ 8 by decide) .fresh
  obtain ⟨t', ht'⟩ := Classical.axiomOfChoice (fun i => runs (sampleParts_valid i) (hi' i) std _ ha (show 3 ≤ 8 by decide) .fresh)
  obtain ⟨res', hr'⟩ := Classical.axiomOfChoice ht'
  refine ⟨t, res, h1, h2, t', res', fun i => (hr' i).1, fun i => (hr' i).2, ?_⟩
  have hl : LastOk sampleColl (lastTerm [99]) := lastOk_of sampleColl_valid (by decide +kernel)
  have hl' : ∀ i, LastOk (sampleParts i) (lastTerm [99]) := fun i => lastOk_of (sampleParts_valid i) (by cases i <;> decide +kernel)
  cases cj with
  | true =>
      exact C97_conj_partial sampleColl_valid sampleParts_valid sampleParts_of hi hi' std (fun _ => std) [99] 3 ha hl hl' (by simp [show completeTerms [99] = [] by decide])
        .fresh (fun _ => .fresh) h1 h2 (fun i => (hr' i).1) (fun i => (hr' i).2)
  | false =>
      exact C97_prefix_partial sampleColl_valid sampleParts_valid sampleParts_of hi hi' std (fun _ => std) [99] 3 ha hl hl'
        (firstApart_of (d := 4) (c := [[97, 98], [98]]) rfl (by decide) (by decide)) sampleParts_apart
        .fresh (fun _ => .fresh) h1 h2 (fun i => (hr' i).1) (fun i => (hr' i).2)

theorem sampleParts_terms (i : Bool) (t : Str) : IsTerm (sampleParts i) t ↔ t ∈ [[97, 98], [98], [99]] := by
  cases i with
  | true =>
      have : sampleParts true = [(4, [[97, 98], [98]]), (2, [[97, 98], [99]]), (0, [[98]])] := by decide
      rw [this]
      simp only [IsTerm, List.mem_cons, List.not_mem_nil, or_false, exists_eq_or_imp, exists_eq_left]
      grind
  | false =>
      have : sampleParts false = [(7, [[98], [97, 98]]), (5, [[99], [98], [98]])] := by decide
      rw [this]
      simp only [IsTerm, List.mem_cons, List.not_mem_nil, or_false, exists_eq_or_imp, exists_eq_left]
      grind

/-- the same with type 4 and blocks of at least 100 postings, both searches -/
example (std : StdLib) (mem : Nat → W) (cj : Bool) : ∃ (x : Index4) (x' : Bool → Index4), Index4.build std 100 (Pre.run sampleColl) mem = .ok x ∧
    (∀ i, Index4.build std 100 (Pre.run (sampleParts i)) mem = .ok (x' i)) ∧ ∃ t res, x.ask std ⟨cj, [99], 3⟩ Scratch.fresh = .ok t ∧ t.pool.results = .ok res ∧
      ∃ (t' : Bool → Scratch) (res' : Bool → List (Nat × Str)), (∀ i, (x' i).ask std ⟨cj, [99], 3⟩ Scratch.fresh = .ok (t' i)) ∧ (∀ i, (t' i).pool.results = .ok (res' i)) ∧ MergeOf 3 res' res := by
  have hw' : ∀ i, Suits4 (sampleParts i) := fun i => ⟨(sampleParts_suits i).to3, by cases i <;> decide⟩
  obtain ⟨x, _, hb, _⟩ := Index4.exists sampleColl_valid.ready sampleColl_suits.to3 std 100 mem
  have hex : ∀ i, ∃ x', Index4.build std 100 (Pre.run (sampleParts i)) mem = .ok x' := by
    intro i
    obtain ⟨x', _, hb', _⟩ := Index4.exists (sampleParts_valid i).ready (sampleParts_suits i).to3 std 100 mem
    exact ⟨x', hb'⟩
  obtain ⟨x', hb'⟩ := Classical.axiomOfChoice hex
  have ha : Ask.Ok ⟨cj, [99], 3⟩ := ⟨show IsText [99] by decide, show 1 ≤ 3 by decide, show 3 ≤ MAX_K by decide⟩
  obtain ⟨t, h1⟩ := C36_type4_partial sampleColl_valid sampleColl_suits4 hb std _ ha (show 3 ≤ 8 by decide) .fresh
  obtain ⟨res, h2, _⟩ := C36_needed4 sampleColl_valid sampleColl_suits4 hb std _ ha .fresh h1
  have hall : ∀ i, ∃ t' res', (x' i).ask std ⟨cj, [99], 3⟩ Scratch.fresh = .ok t' ∧ t'.pool.results = .ok res' := by
    intro i
    obtain ⟨t', h3⟩ := C36_type4_partial (sampleParts_valid i) (hw' i) (hb' i) std _ ha (show 3 ≤ 8 by decide) .fresh
    obtain ⟨res', h4, _⟩ := C36_needed4 (sampleParts_valid i) (hw' i) (hb' i) std _ ha .fresh h3
    exact ⟨t', res', h3, h4⟩
  obtain ⟨t', ht'⟩ := Classical.axiomOfChoice hall
  obtain ⟨res', hr'⟩ := Classical.axiomOfChoice ht'
  have hl : LastOk sampleColl (lastTerm [99]) := lastOk_of sampleColl_valid (by decide +kernel)
  have hl' : ∀ i, LastOk (sampleParts i) (lastTerm [99]) := fun i => lastOk_of (sampleParts_valid i) (by cases i <;> decide +kernel)
  refine ⟨x, x', hb, hb', t, res, h1, h2, t', res', fun i => (hr' i).1, fun i => (hr' i).2, ?_⟩
  cases cj with
  | true =>
      have hB' : ∀ i, IsBlocks (sampleParts i) 100 [[[97, 98], [98], [99]]] := fun i =>
        ⟨by decide, fun t => by rw [sampleParts_terms]; rfl, by decide, by cases i <;> decide, by cases i <;> decide⟩
      have hno : completeTerms [99] = [] := by decide
      exact C97_conj4_partial sampleColl_valid sampleParts_valid sampleParts_of sampleColl_suits4 hw' hb hb' sampleColl_blocks.2 hB' std (fun _ => std) [99] 3 ha hl hl'
        (by simp [hno]) ⟨⟨_, List.mem_singleton.mpr rfl, fun y hy _ => (sampleColl_terms y).mp hy⟩, .inl (by rw [hno]; simp)⟩
        (fun i => ⟨⟨_, List.mem_singleton.mpr rfl, fun y hy _ => (sampleParts_terms i y).mp hy⟩, .inl (by rw [hno]; simp)⟩)
        .fresh (fun _ => .fresh) h1 h2 (fun i => (hr' i).1) (fun i => (hr' i).2)
  | false =>
      exact C97_type4_partial sampleColl_valid sampleParts_valid sampleParts_of sampleColl_suits4 hw' hb hb' std (fun _ => std) [99] 3 ha hl hl'
        (firstApart_of (d := 4) (c := [[97, 98], [98]]) rfl (by decide) (by decide)) sampleParts_apart
        .fresh (fun _ => .fresh) h1 h2 (fun i => (hr' i).1) (fun i => (hr' i).2)

/-- "ab" and "car", and the rest of `carColl` -/
def carParts (i : Bool) : Coll := carColl.filter (fun r => decide (r.1 < 2) == i)

theorem carParts_of : PartsOf carColl carParts :=
  partsOf_filter carColl (fun i r => decide (r.1 < 2) == i) (by
    intro r
    cases decide (r.1 < 2) <;> simp)

theorem carParts_valid (i : Bool) : ValidColl (carParts i) := C94_valid carColl_valid _ (by cases i <;> decide)

theorem carParts_terms (t : Str) : IsTerm (carParts true) t ↔ t ∈ [[97, 98], [99, 97, 114]] := by
  have : carParts true = [(1, [[97, 98]]), (0, [[99, 97, 114]])] := by decide
  rw [this]
  simp only [IsTerm, List.mem_cons, List.not_mem_nil, or_false, exists_eq_or_imp, exists_eq_left]

/-- the query "dog ca", conjunctive search: the first part shows "car", the whole collection does not -/
example (std : StdLib) {run : StdLib → Ask → Scratch → M Scratch} {run' : Bool → StdLib → Ask → Scratch → M Scratch} (hi : IsIndex carColl run) (hi' : ∀ i, IsIndex (carParts i) (run' i)) :
    ∃ t res, run std ⟨true, [100, 111, 103, 32, 99, 97], 3⟩ Scratch.fresh = .ok t ∧ t.pool.results = .ok res ∧ ∃ (t' : Bool → Scratch) (res' : Bool → List (Nat × Str)),
      (∀ i, run' i std ⟨true, [100, 111, 103, 32, 99, 97], 3⟩ Scratch.fresh = .ok (t' i)) ∧
      (∀ i, (t' i).pool.results = .ok (res' i)) ∧ (0, [99, 97, 114]) ∈ res' true ∧ 0 ∉ res.map (·.1) ∧ ¬ MergeOf 3 res' res := by
  have ha : Ask.Ok ⟨true, [100, 111, 103, 32, 99, 97], 3⟩ := ⟨show IsText [100, 111, 103, 32, 99, 97] by decide, show 1 ≤ 3 by decide, show 3 ≤ MAX_K by decide⟩
  obtain ⟨t, res, h1, h2⟩ := runs carColl_valid hi std _ ha (show 3 ≤ 8 by decide) .fresh
  obtain ⟨t', ht'⟩ := Classical.axiomOfChoice (fun i => runs (carParts_valid i) (hi' i) std _ ha (show 3 ≤ 8 by decide) .fresh)
  obtain ⟨res', hr'⟩ := Classical.axiomOfChoice ht'
  have hterms : completeTerms [100, 111, 103, 32, 99, 97] = [[100, 111, 103]] := by decide
  refine ⟨t, res, h1, h2, t', res', fun i => (hr' i).1, fun i => (hr' i).2, ?_⟩
  refine C97_false carColl_valid carParts_valid carParts_of hi hi' std (fun _ => std) _ 3 ha (i := true) (u := [100, 111, 103]) (by rw [hterms]; simp)
    ⟨(2, [[100, 111, 103]]), by decide, by decide⟩ (by rw [hterms]; intro t ht; rw [carParts_terms]; rw [List.mem_singleton.mp ht]; decide)
    (lastOk_of (carParts_valid true) (by decide +kernel)) (d := 0) (c := [[99, 97, 114]]) (by decide) (by decide) ⟨[99, 97, 114], by decide, by decide⟩
    .fresh (fun _ => .fresh) h1 h2 (fun i => (hr' i).1) (fun i => (hr' i).2)

/-- "car" and "dog", and the rest of `carColl` -/
def carParts' (i : Bool) : Coll := carColl.filter (fun r => decide (r.1 % 2 = 0) == i)

theorem carParts'_valid (i : Bool) : ValidColl (carParts' i) := C94_valid carColl_valid _ (by cases i <;> decide)

theorem carParts'_first : IsFirstTerm (carParts' true) [99, 97, 114] := by
  have : (Pre.run (carParts' true)).terms[0]'(by decide +kernel) = [99, 97, 114] := by decide +kernel
  rw [← this]
  exact ((carParts'_valid true).ready.isFirst _).mpr rfl

/-- the query "ca", both searches: the whole collection shows "car", none of the parts does -/
example (std : StdLib) {run : StdLib → Ask → Scratch → M Scratch} {run' : Bool → StdLib → Ask → Scratch → M Scratch} (hi : IsIndex carColl run) (hi' : ∀ i, IsIndex (carParts' i) (run' i))
    (cj : Bool) : ∃ t res, run std ⟨cj, [99, 97], 3⟩ Scratch.fresh = .ok t ∧ t.pool.results = .ok res ∧ ∃ (t' : Bool → Scratch) (res' : Bool → List (Nat × Str)), (∀ i, run' i std ⟨cj, [99, 97], 3⟩ Scratch.fresh = .ok (t' i)) ∧
      (∀ i, (t' i).pool.results = .ok (res' i)) ∧ (0, [99, 97, 114]) ∈ res ∧ (∀ i, 0 ∉ (res' i).map (·.1)) ∧ ¬ MergeOf 3 res' res := by
  have ha : Ask.Ok ⟨cj, [99, 97], 3⟩ := ⟨show IsText [99, 97] by decide, show 1 ≤ 3 by decide, show 3 ≤ MAX_K by decide⟩
  obtain ⟨t, res, h1, h2⟩ := runs carColl_valid hi std _ ha (show 3 ≤ 8 by decide) .fresh
  obtain ⟨t', ht'⟩ := Classical.axiomOfChoice (fun i => runs (carParts'_valid i) (hi' i) std _ ha (show 3 ≤ 8 by decide) .fresh)
  obtain ⟨res', hr'⟩ := Classical.axiomOfChoice ht'
  refine ⟨t, res, h1, h2, t', res', fun i => (hr' i).1, fun i => (hr' i).2, ?_⟩
  have honly : ∀ j, j ≠ true → ∀ c, (0, c) ∉ carParts' j := by
    intro j hj c hc
    have : ∀ r ∈ carParts' false, r.1 ≠ 0 := by decide
    cases j with
    | true => exact hj rfl
    | false => exact this _ hc rfl
  exact C97_false_first carColl_valid carParts'_valid hi hi' std (fun _ => std) cj _ 3 ha (i := true) (u := [99, 97, 114]) (d := 0) carParts'_first (by decide) (by decide) honly
    (by decide) (by decide) (by decide) (by decide) (by decide) (by decide) (lastOk_of carColl_valid (by decide +kernel))
    .fresh (fun _ => .fresh) h1 h2 (fun i => (hr' i).1) (fun i => (hr' i).2)

end AC.Props
