import Verif.Proofs.Renumber
import Verif.Spec.Renumber
import Verif.Props.Removal
/-!
# C95 and C96: the document ids (scores) of the completions
-/
namespace AC.Props
open AC Spec

/-- two indexes of the same type, from 1 to 3, of two collections -/
inductive Twins (C D : Coll) : (StdLib → Ask → Scratch → M Scratch) → (StdLib → Ask → Scratch → M Scratch) → Prop
  | type1 {mem mem' : Nat → W} {x x' : Index1} : Suits1 C → Suits1 D → Index1.build (Pre.run C) mem = .ok x → Index1.build (Pre.run D) mem' = .ok x' → Twins C D x.ask x'.ask
  | type2 {mem mem' : Nat → W} {x x' : Index2} : Suits2 C → Suits2 D → Index2.build (Pre.run C) mem = .ok x → Index2.build (Pre.run D) mem' = .ok x' → Twins C D x.ask x'.ask
  | type3 {mem mem' : Nat → W} {x x' : Index3} : Suits3 C → Suits3 D → Index3.build (Pre.run C) mem = .ok x → Index3.build (Pre.run D) mem' = .ok x' → Twins C D x.ask x'.ask

section
variable {C D : Coll} {run run' : StdLib → Ask → Scratch → M Scratch}

theorem Twins.serves (hC : ValidColl C) (hD : ValidColl D) (ht : C.map (·.2) = D.map (·.2)) (h : Twins C D run run') : ∃ pre, Serves C pre run ∧ Serves D pre run' := by
  cases h with
  | type1 hw hw' hb hb' =>
      refine ⟨_, Index1.serves hC (Index1.rep_of_build hC hw hb), ?_⟩
      rw [prefixFound_texts ht]
      exact Index1.serves hD (Index1.rep_of_build hD hw' hb')
  | type2 hw hw' hb hb' =>
      refine ⟨_, Index2.serves hC (Index2.rep_of_build hC hw hb), ?_⟩
      rw [prefixFound2_texts ht]
      exact Index2.serves hD (Index2.rep_of_build hD hw' hb')
  | type3 hw hw' hb hb' =>
      refine ⟨_, Index3.serves hC (Index3.rep_of_build hC hw hb), ?_⟩
      rw [prefixFound2_texts ht]
      exact Index3.serves hD (Index3.rep_of_build hD hw' hb')

/-- the results of both indexes are the best of the same completions -/
theorem Twins.best (hC : ValidColl C) (hD : ValidColl D) (ht : C.map (·.2) = D.map (·.2)) (h : Twins C D run run') (std std' : StdLib) (a : Ask) (ha : a.Ok)
    {s s' t t' : Scratch} {res res' : List (Nat × Str)} (hs : Visited run s)
    (hs' : Visited run' s') (h1 : run std a s = .ok t) (h2 : t.pool.results = .ok res) (h3 : run' std' a s' = .ok t') (h4 : t'.pool.results = .ok res') :
    ∃ P E E', Spec.Best C P a.k E ∧ Spec.Best D P a.k E' ∧ res = E.map shown ∧ res' = E'.map shown := by
  obtain ⟨pre, g, g'⟩ := h.serves hC hD ht
  obtain ⟨E, b, e1, _⟩ := (g std _ s ha (hs.wf g)).cases h1
  obtain ⟨E', b', e1', _⟩ := (g' std' _ s' ha (hs'.wf g')).cases h3
  rw [h2] at e1
  rw [h4] at e1'
  cases e1
  cases e1'
  rw [← foundBy_texts ht] at b'
  exact ⟨_, E, E', b, b', rfl, rfl⟩

/-- the results of both indexes are the best of the same completions; type 4, prefix search -/
theorem best4 (hC : ValidColl C) (hD : ValidColl D) (ht : C.map (·.2) = D.map (·.2)) (hw : Suits4 C) (hw' : Suits4 D) {std₀ std₀' : StdLib} {m m' : Nat} {mem mem' : Nat → W}
    {x x' : Index4} (hb : Index4.build std₀ m (Pre.run C) mem = .ok x) (hb' : Index4.build std₀' m' (Pre.run D) mem' = .ok x') (std std' : StdLib) (q : Str) (k : Nat)
    (ha : Ask.Ok ⟨false, q, k⟩) {s s' t t' : Scratch} {res res' : List (Nat × Str)} (hs : Visited x.ask s) (hs' : Visited x'.ask s') (h1 : x.ask std ⟨false, q, k⟩ s = .ok t)
    (h2 : t.pool.results = .ok res) (h3 : x'.ask std' ⟨false, q, k⟩ s' = .ok t') (h4 : t'.pool.results = .ok res') :
    ∃ P E E', Spec.Best C P k E ∧ Spec.Best D P k E' ∧ res = E.map shown ∧ res' = E'.map shown := by
  obtain ⟨_, hx⟩ := Index4.rep_of_build hC hw.toSuits3 hb
  obtain ⟨_, hx'⟩ := Index4.rep_of_build hD hw'.toSuits3 hb'
  obtain ⟨E, b, e1, _⟩ := (Base.prefix_spec std hC.ready hx.base hx.dict hx.built ha.1 ha.2.1 ha.2.2 (type4_wf hC hw hb hs)).cases h1
  obtain ⟨E', b', e1', _⟩ := (Base.prefix_spec std' hD.ready hx'.base hx'.dict hx'.built ha.1 ha.2.1 ha.2.2 (type4_wf hD hw' hb' hs')).cases h3
  rw [h2] at e1
  rw [h4] at e1'
  cases e1
  cases e1'
  rw [← prefixFound2_texts ht] at b'
  exact ⟨_, E, E', b, b', rfl, rfl⟩

theorem shown_texts (E : Coll) : (E.map shown).map (·.2) = (E.map (·.2)).map joined := by
  rw [List.map_map, List.map_map]
  rfl

/-- **C95**: only the order of the document ids matters. Two indexes of the same type, of collections with the same texts and document ids in the same order, show the same texts in
the same order, with both searches. -/
theorem C95_order (hC : ValidColl C) (hD : ValidColl D) (hso : SameOrder C D) (h : Twins C D run run') (std std' : StdLib) (a : Ask) (ha : a.Ok)
    {s s' t t' : Scratch} {res res' : List (Nat × Str)} (hs : Visited run s)
    (hs' : Visited run' s') (h1 : run std a s = .ok t) (h2 : t.pool.results = .ok res) (h3 : run' std' a s' = .ok t') (h4 : t'.pool.results = .ok res') :
    res'.map (·.2) = res.map (·.2) := by
  obtain ⟨P, E, E', b, b', rfl, rfl⟩ := h.best hC hD hso.1 std std' a ha hs hs' h1 h2 h3 h4
  rw [shown_texts, shown_texts, b.same_texts hC hD hso.1 hso.2 b']

/-- **C95**, type 4, prefix search, with any two block sizes -/
theorem C95_type4 (hC : ValidColl C) (hD : ValidColl D) (hso : SameOrder C D) (hw : Suits4 C) (hw' : Suits4 D) {std₀ std₀' : StdLib} {m m' : Nat} {mem mem' : Nat → W}
    {x x' : Index4} (hb : Index4.build std₀ m (Pre.run C) mem = .ok x) (hb' : Index4.build std₀' m' (Pre.run D) mem' = .ok x') (std std' : StdLib) (q : Str) (k : Nat)
    (ha : Ask.Ok ⟨false, q, k⟩) {s s' t t' : Scratch} {res res' : List (Nat × Str)} (hs : Visited x.ask s) (hs' : Visited x'.ask s') (h1 : x.ask std ⟨false, q, k⟩ s = .ok t)
    (h2 : t.pool.results = .ok res) (h3 : x'.ask std' ⟨false, q, k⟩ s' = .ok t') (h4 : t'.pool.results = .ok res') : res'.map (·.2) = res.map (·.2) := by
  obtain ⟨P, E, E', b, b', rfl, rfl⟩ := best4 hC hD hso.1 hw hw' hb hb' std std' q k ha hs hs' h1 h2 h3 h4
  rw [shown_texts, shown_texts, b.same_texts hC hD hso.1 hso.2 b']

theorem rank_le {P : List Str → Prop} {k : Nat} {E E' : Coll} (hC : ValidColl C) (hD : ValidColl D) (b : Spec.Best C P k E) (b' : Spec.Best D P k E') {c : List Str}
    (hnw : NotWorse C D c) {i : Nat} {d : Nat} (hi : E[i]? = some (d, c)) : ∃ j d', j ≤ i ∧ E'[j]? = some (d', c) := by
  have hc : (d, c) ∈ E := List.mem_of_getElem? hi
  obtain ⟨d', hd⟩ := mem_of_texts hnw.1 (b.sound _ hc).1
  have hm : (d', c) ∈ E' := b.stays hC hD hnw.1 b' hc hd (fun e e' x he he' hlt => hnw.2 d d' e e' x (b.sound _ hc).1 hd he he' hlt)
  obtain ⟨j, hj, e⟩ := List.getElem_of_mem hm
  refine ⟨j, d', ?_, by rw [List.getElem?_eq_getElem hj, e]⟩
  -- the first `j` of the new results were among the first `i` of the old ones
  have hE' := List.pairwise_iff_getElem.mp b'.sorted
  have hE := List.pairwise_iff_getElem.mp b.sorted
  obtain ⟨hil, ei⟩ := List.getElem?_eq_some_iff.mp hi
  have hle : ((E'.take j).map (·.2)).length ≤ ((E.take i).map (·.2)).length := by
    apply nodup_subset_length'
    · refine List.pairwise_map.mpr ((b'.sorted.sublist (List.take_sublist _ _)).imp_of_mem ?_)
      intro r s hr hs hlt e
      have : r.1 = s.1 := text_id hD.sorted (c := s.2) (by rw [← e]; exact (b'.sound r (List.mem_of_mem_take hr)).1) (b'.sound s (List.mem_of_mem_take hs)).1
      omega
    · intro x hx
      obtain ⟨r, hr, rfl⟩ := List.mem_map.mp hx
      obtain ⟨n, hn, en⟩ := List.getElem_of_mem hr
      have hnj : n < j := by rw [List.length_take] at hn; omega
      rw [List.getElem_take] at en
      obtain ⟨g1, g2⟩ := b'.sound r (List.mem_of_mem_take hr)
      have hlt : r.1 < d' := by
        have := hE' n j (by omega) hj hnj
        rw [en, e] at this
        exact this
      obtain ⟨e0, he0⟩ := mem_of_texts (d := r.1) hnw.1.symm g1
      have hlt0 := hnw.2 d d' e0 r.1 r.2 (b.sound _ hc).1 hd he0 g1 hlt
      have hin : (e0, r.2) ∈ E := by
        apply Classical.byContradiction
        intro hm
        have := (b.complete _ he0 g2 hm).2 _ hc
        simp only at this
        omega
      obtain ⟨n', hn', en'⟩ := List.getElem_of_mem hin
      have hn'i : n' < i := by
        apply Classical.byContradiction
        intro hge
        rcases Nat.lt_or_ge i n' with h | h
        · have := hE i n' hil hn' h
          rw [en', ei] at this
          simp only at this
          omega
        · have : n' = i := by omega
          subst this
          rw [en'] at ei
          have : e0 = d := congrArg Prod.fst ei
          omega
      refine List.mem_map.mpr ⟨(e0, r.2), ?_, rfl⟩
      rw [← en']
      exact List.mem_take_iff_getElem.mpr ⟨n', by omega, rfl⟩
  simp only [List.length_map, List.length_take] at hle
  omega

/-- **C96**: a better document id (score) never hurts. When the document ids change such that no completion gets ahead of `c` that was not ahead of it before, and `c` was shown, it is
shown in the same place or further up, with both searches. -/
theorem C96_better (hC : ValidColl C) (hD : ValidColl D) {c : List Str} (hnw : NotWorse C D c) (h : Twins C D run run') (std std' : StdLib) (a : Ask) (ha : a.Ok)
    {s s' t t' : Scratch} {res res' : List (Nat × Str)} (hs : Visited run s)
    (hs' : Visited run' s') (h1 : run std a s = .ok t) (h2 : t.pool.results = .ok res) (h3 : run' std' a s' = .ok t') (h4 : t'.pool.results = .ok res')
    {i d : Nat} (hd : (d, c) ∈ C) (hi : res[i]? = some (d, joined c)) : ∃ j d', j ≤ i ∧ (d', c) ∈ D ∧ res'[j]? = some (d', joined c) := by
  obtain ⟨P, E, E', b, b', rfl, rfl⟩ := h.best hC hD hnw.1 std std' a ha hs hs' h1 h2 h3 h4
  rw [List.getElem?_map, Option.map_eq_some_iff] at hi
  obtain ⟨r, hr, e⟩ := hi
  have h1' : r.1 = d := congrArg (fun z : Nat × Str => z.1) e
  have h2' : r.2 = c := hC.ready.unique (d := d) (by rw [← h1']; exact (b.sound r (List.mem_of_getElem? hr)).1) hd
  obtain ⟨j, d', hj, ej⟩ := rank_le hC hD b b' hnw (i := i) (d := d) (by rw [hr, ← h1', ← h2'])
  exact ⟨j, d', hj, (b'.sound _ (List.mem_of_getElem? ej)).1, by rw [List.getElem?_map, ej]; rfl⟩

/-- **C96**, type 4, prefix search, with any two block sizes -/
theorem C96_type4 (hC : ValidColl C) (hD : ValidColl D) {c : List Str} (hnw : NotWorse C D c) (hw : Suits4 C) (hw' : Suits4 D) {std₀ std₀' : StdLib} {m m' : Nat} {mem mem' : Nat → W}
    {x x' : Index4} (hb : Index4.build std₀ m (Pre.run C) mem = .ok x) (hb' : Index4.build std₀' m' (Pre.run D) mem' = .ok x') (std std' : StdLib) (q : Str) (k : Nat)
    (ha : Ask.Ok ⟨false, q, k⟩) {s s' t t' : Scratch} {res res' : List (Nat × Str)} (hs : Visited x.ask s) (hs' : Visited x'.ask s') (h1 : x.ask std ⟨false, q, k⟩ s = .ok t)
    (h2 : t.pool.results = .ok res) (h3 : x'.ask std' ⟨false, q, k⟩ s' = .ok t') (h4 : t'.pool.results = .ok res')
    {i d : Nat} (hd : (d, c) ∈ C) (hi : res[i]? = some (d, joined c)) : ∃ j d', j ≤ i ∧ (d', c) ∈ D ∧ res'[j]? = some (d', joined c) := by
  obtain ⟨P, E, E', b, b', rfl, rfl⟩ := best4 hC hD hnw.1 hw hw' hb hb' std std' q k ha hs hs' h1 h2 h3 h4
  rw [List.getElem?_map, Option.map_eq_some_iff] at hi
  obtain ⟨r, hr, e⟩ := hi
  have h1' : r.1 = d := congrArg (fun z : Nat × Str => z.1) e
  have h2' : r.2 = c := hC.ready.unique (d := d) (by rw [← h1']; exact (b.sound r (List.mem_of_getElem? hr)).1) hd
  obtain ⟨j, d', hj, ej⟩ := rank_le hC hD b b' hnw (i := i) (d := d) (by rw [hr, ← h1', ← h2'])
  exact ⟨j, d', hj, (b'.sound _ (List.mem_of_getElem? ej)).1, by rw [List.getElem?_map, ej]; rfl⟩

end

/-! ## Examples -/

theorem sameOrder_of {C D : Coll} (ht : C.map (·.2) = D.map (·.2)) (h : ∀ r ∈ C, ∀ s ∈ C, ∀ r' ∈ D, ∀ s' ∈ D, r.2 = r'.2 → s.2 = s'.2 → (r.1 < s.1 ↔ r'.1 < s'.1)) : SameOrder C D :=
  ⟨ht, fun d e d' e' x y h1 h2 h3 h4 => h (d, x) h1 (e, y) h2 (d', x) h3 (e', y) h4 rfl rfl⟩

theorem notWorse_of {C D : Coll} {c : List Str} (ht : C.map (·.2) = D.map (·.2))
    (h : ∀ r ∈ C, ∀ r' ∈ D, r.2 = c → r'.2 = c → ∀ s ∈ C, ∀ s' ∈ D, s.2 = s'.2 → s'.1 < r'.1 → s.1 < r.1) : NotWorse C D c :=
  ⟨ht, fun d d' e e' x h1 h2 h3 h4 => h (d, c) h1 (d', c) h2 rfl rfl (e, x) h3 (e', x) h4 rfl⟩

/-- document ids changed by any strictly increasing function are in the same order -/
theorem sameOrder_map {C : Coll} (hC : ValidColl C) {f : Nat → Nat} (hf : ∀ d e, d < e ↔ f d < f e) : SameOrder C (C.map fun r => (f r.1, r.2)) := by
  refine ⟨by rw [List.map_map]; rfl, ?_⟩
  intro d e d' e' x y h1 h2 h3 h4
  obtain ⟨r, hr, g⟩ := List.mem_map.mp h3
  obtain ⟨s, hs, g'⟩ := List.mem_map.mp h4
  cases g
  cases g'
  rw [text_id hC.sorted h1 hr, text_id hC.sorted h2 hs]
  exact hf _ _

/-- the sample with other ids in the same order -/
def sampleSpread : Coll := [(41, [[97, 98], [98]]), (20, [[97, 98], [99]]), (0, [[98]]), (1000, [[98], [97, 98]]), (42, [[99], [98], [98]])]

theorem sampleSpread_valid : ValidColl sampleSpread := ⟨by decide, by decide, by decide, by decide, by decide, by decide, by decide, by decide, by decide, by decide⟩

theorem sampleSpread_suits : Suits2 sampleSpread :=
  { terms := ⟨_, sampleSpread_valid.ready.numTerms, by decide +kernel⟩
    doc0 := ⟨[97, 98], ⟨(20, [[97, 98], [99]]), by decide, by decide⟩, by
      have : ∀ r ∈ sampleSpread, r.1 = 0 → [97, 98] ∉ r.2 := by decide
      exact fun c hc => this _ hc rfl⟩
    count := by decide }

/-- the sample with a better id for "c b b" -/
def sampleBetter : Coll := [(4, [[97, 98], [98]]), (2, [[97, 98], [99]]), (0, [[98]]), (7, [[98], [97, 98]]), (1, [[99], [98], [98]])]

theorem sampleBetter_valid : ValidColl sampleBetter := ⟨by decide, by decide, by decide, by decide, by decide, by decide, by decide, by decide, by decide, by decide⟩

theorem sampleBetter_suits : Suits2 sampleBetter :=
  { terms := ⟨_, sampleBetter_valid.ready.numTerms, by decide +kernel⟩
    doc0 := ⟨[97, 98], ⟨(2, [[97, 98], [99]]), by decide, by decide⟩, by
      have : ∀ r ∈ sampleBetter, r.1 = 0 → [97, 98] ∉ r.2 := by decide
      exact fun c hc => this _ hc rfl⟩
    count := by decide }

/-- conjunctive search for "b" with type 2: the same texts with both numberings -/
example (std : StdLib) (mem : Nat → W) : ∃ x x' : Index2, Twins sampleColl sampleSpread x.ask x'.ask ∧ ∃ t res t' res',
    x.ask std ⟨true, [98], 3⟩ Scratch.fresh = .ok t ∧ t.pool.results = .ok res ∧ x'.ask std ⟨true, [98], 3⟩ Scratch.fresh = .ok t' ∧ t'.pool.results = .ok res' ∧ res'.map (·.2) = res.map (·.2) := by
  obtain ⟨x, hb, _⟩ := Index2.exists sampleColl_valid.ready sampleColl_suits mem
  obtain ⟨x', hb', _⟩ := Index2.exists sampleSpread_valid.ready sampleSpread_suits mem
  have ha : Ask.Ok ⟨true, [98], 3⟩ := ⟨show IsText [98] by decide, show 1 ≤ 3 by decide, show 3 ≤ MAX_K by decide⟩
  obtain ⟨t, res, h1, h2⟩ := runs sampleColl_valid (.type2 sampleColl_suits hb) std _ ha (show 3 ≤ 8 by decide) .fresh
  obtain ⟨t', res', h3, h4⟩ := runs sampleSpread_valid (.type2 sampleSpread_suits hb') std _ ha (show 3 ≤ 8 by decide) .fresh
  have hT : Twins sampleColl sampleSpread x.ask x'.ask := .type2 sampleColl_suits sampleSpread_suits hb hb'
  exact ⟨x, x', hT, t, res, t', res', h1, h2, h3, h4, C95_order sampleColl_valid sampleSpread_valid (sameOrder_of (by decide) (by decide)) hT std std _ ha .fresh .fresh h1 h2 h3 h4⟩

/-- prefix search for "c" with type 1: "c b b", shown first, stays -/
example (std : StdLib) (mem : Nat → W) : ∃ x x' : Index1, Twins sampleColl sampleBetter x.ask x'.ask ∧ NotWorse sampleColl sampleBetter [[99], [98], [98]] ∧ ∃ t res t' res',
    x.ask std ⟨false, [99], 3⟩ Scratch.fresh = .ok t ∧ t.pool.results = .ok res ∧ x'.ask std ⟨false, [99], 3⟩ Scratch.fresh = .ok t' ∧ t'.pool.results = .ok res' ∧
      (∀ i : Nat, res[i]? = some (5, [99, 32, 98, 32, 98]) → ∃ j d' : Nat, j ≤ i ∧ res'[j]? = some (d', [99, 32, 98, 32, 98])) := by
  obtain ⟨x, hb, _⟩ := Index1.exists sampleColl_valid.ready sampleColl_suits.toSuits1 mem
  obtain ⟨x', hb', _⟩ := Index1.exists sampleBetter_valid.ready sampleBetter_suits.toSuits1 mem
  have ha : Ask.Ok ⟨false, [99], 3⟩ := ⟨show IsText [99] by decide, show 1 ≤ 3 by decide, show 3 ≤ MAX_K by decide⟩
  obtain ⟨t, res, h1, h2⟩ := runs sampleColl_valid (.type1 sampleColl_suits.toSuits1 hb) std _ ha (show 3 ≤ 8 by decide) .fresh
  obtain ⟨t', res', h3, h4⟩ := runs sampleBetter_valid (.type1 sampleBetter_suits.toSuits1 hb') std _ ha (show 3 ≤ 8 by decide) .fresh
  have hT : Twins sampleColl sampleBetter x.ask x'.ask := .type1 sampleColl_suits.toSuits1 sampleBetter_suits.toSuits1 hb hb'
  have hn : NotWorse sampleColl sampleBetter [[99], [98], [98]] := notWorse_of (by decide) (by decide)
  refine ⟨x, x', hT, hn, t, res, t', res', h1, h2, h3, h4, fun i hi => ?_⟩
  obtain ⟨j, d', g1, _, g3⟩ := C96_better sampleColl_valid sampleBetter_valid hn hT std std _ ha .fresh .fresh h1 h2 h3 h4 (d := 5) (by decide) hi
  exact ⟨j, d', g1, g3⟩

/-- type 4 can be built from the three collections -/
example (std : StdLib) (mem : Nat → W) : (∃ x, Index4.build std 3 (Pre.run sampleColl) mem = .ok x) ∧ (∃ x, Index4.build std 100 (Pre.run sampleSpread) mem = .ok x) ∧
    ∃ x, Index4.build std 3 (Pre.run sampleBetter) mem = .ok x := by
  obtain ⟨x, _, h, _⟩ := Index4.exists sampleColl_valid.ready sampleColl_suits.to3 std 3 mem
  obtain ⟨y, _, g, _⟩ := Index4.exists sampleSpread_valid.ready sampleSpread_suits.to3 std 100 mem
  obtain ⟨z, _, f, _⟩ := Index4.exists sampleBetter_valid.ready sampleBetter_suits.to3 std 3 mem
  exact ⟨⟨x, h⟩, ⟨y, g⟩, ⟨z, f⟩⟩

end AC.Props
