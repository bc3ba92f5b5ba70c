import Verif.Props.Conjunctive
import Verif.Proofs.Asks
/-!
# C07 and C30 to C36: what the answers have in common

`IsIndex C run`: `run` is how an index of type 1, 2 or 3 built from the collection `C` answers; it takes the standard library, what is
asked and the state of the object, and gives the new state, from which a client reads the results.
-/
namespace AC.Props
open AC Spec

/-- all the types can be built from the sample -/
example (mem : Nat → W) : (∃ x : Index1, IsIndex sampleColl x.ask) ∧ (∃ x : Index2, IsIndex sampleColl x.ask) ∧
    ∃ x : Index3, IsIndex sampleColl x.ask := by
  obtain ⟨x, h1, _⟩ := Index1.exists sampleColl_valid.ready sampleColl_suits.toSuits1 mem
  obtain ⟨y, h2, _⟩ := Index2.exists sampleColl_valid.ready sampleColl_suits mem
  obtain ⟨z, h3, _⟩ := Index3.exists sampleColl_valid.ready sampleColl_suits.to3 mem
  exact ⟨⟨x, .type1 sampleColl_suits.toSuits1 h1⟩, ⟨y, .type2 sampleColl_suits h2⟩, z, .type3 sampleColl_suits.to3 h3⟩

variable {C : Coll} {run run' : StdLib → Ask → Scratch → M Scratch}

/-! ## C07 -/

/-- **C07**, conjunctive search: whatever the two types, the standard libraries and the queries answered before, the results are the same. -/
theorem C07_conj (hC : ValidColl C) (hi : IsIndex C run) (hi' : IsIndex C run') (std std' : StdLib) (a : Ask) (ha : a.Ok) (hc : a.conj = true)
    {s s' : Scratch} (hs : Visited run s) (hs' : Visited run' s') : SameAnswer (run std a s) (run' std' a s') := by
  obtain ⟨pre, _, h⟩ := hi.serves hC
  obtain ⟨pre', _, h'⟩ := hi'.serves hC
  refine (h std a s ha (hs.wf h)).same hC.docs ?_ (h' std' a s' ha (hs'.wf h'))
  intro r _
  unfold foundBy
  rw [if_pos hc, if_pos hc]

/-- **C07**, prefix search with types 2 and 3 (and 4, which has the same members for this search). -/
theorem C07_prefix23 (hC : ValidColl C) (hw : Suits2 C) {mem mem' : Nat → W} {x : Index2} {y : Index3} (hx : Index2.build (Pre.run C) mem = .ok x)
    (hy : Index3.build (Pre.run C) mem' = .ok y) (std std' : StdLib) (a : Ask) (ha : a.Ok) {s s' : Scratch} (hs : Visited x.ask s)
    (hs' : Visited y.ask s') : SameAnswer (x.ask std a s) (y.ask std' a s') := by
  have h := Index2.serves hC (Index2.rep_of_build hC hw hx)
  have h' := Index3.serves hC (Index3.rep_of_build hC hw.to3 hy)
  exact (h std a s ha (hs.wf h)).same hC.docs (fun _ _ => Iff.rfl) (h' std' a s' ha (hs'.wf h'))

/-- **C07**, prefix search with all types. Missing from the claim: the queries that the first completion matches (`C07_false`). -/
theorem C07_prefix_partial (hC : ValidColl C) (hi : IsIndex C run) (hi' : IsIndex C run') (std std' : StdLib) (a : Ask) (ha : a.Ok)
    (hf : ∀ c, IsFirstCompletion C c → ¬ PrefixMatch (completeTerms a.text) (lastTerm a.text) c)
    {s s' : Scratch} (hs : Visited run s) (hs' : Visited run' s') : SameAnswer (run std a s) (run' std' a s') := by
  obtain ⟨pre, hp, h⟩ := hi.serves hC
  obtain ⟨pre', hp', h'⟩ := hi'.serves hC
  have key : ∀ pre, (pre = PrefixFound C ∨ pre = PrefixFound2 C) → ∀ r : Nat × List Str, pre (completeTerms a.text) (lastTerm a.text) r.2 ↔
      PrefixFound C (completeTerms a.text) (lastTerm a.text) r.2 := by
    rintro pre (rfl | rfl) r
    · exact Iff.rfl
    · refine ⟨fun h => h.1, fun h => ⟨h, fun hc => ?_⟩⟩
      obtain ⟨x, h1, h2⟩ := h
      exact absurd ⟨x, h1.1, h2⟩ (hf r.2 hc)
  refine (h std a s ha (hs.wf h)).same hC.docs ?_ (h' std' a s' ha (hs'.wf h'))
  intro r _
  unfold foundBy
  split
  · exact Iff.rfl
  · rw [key pre hp, key pre' hp']

/-- C07 is false: whatever the collection, when the first completion has the smallest document id and matches a query with fewer terms, and the
query does not end with a strict beginning of the first term, then type 1 returns this completion and type 3 does not. -/
theorem C07_false (hC : ValidColl C) (hw : Suits2 C) {mem mem' : Nat → W} {x : Index1} {y : Index3} (hx : Index1.build (Pre.run C) mem = .ok x)
    (hy : Index3.build (Pre.run C) mem' = .ok y) (std std' : StdLib) (a : Ask) (ha : a.Ok) (hc : a.conj = false) (hl : LastOk C (lastTerm a.text))
    {d : Nat} {c : List Str} (hd : C.head? = some (d, c)) (hmin : ∀ r ∈ C, d ≤ r.1)
    (hm : PrefixMatch (completeTerms a.text) (lastTerm a.text) c) (hlen : (completeTerms a.text).length + 1 < c.length)
    {s s' t t' : Scratch} {res res' : List (Nat × Str)} (hs : Visited x.ask s) (hs' : Visited y.ask s')
    (h1 : x.ask std a s = .ok t) (h2 : t.pool.results = .ok res) (h3 : y.ask std' a s' = .ok t') (h4 : t'.pool.results = .ok res') :
    (d, joined c) ∈ res ∧ (d, joined c) ∉ res' := by
  have h := Index1.serves hC (Index1.rep_of_build hC hw.toSuits1 hx)
  have h' := Index3.serves hC (Index3.rep_of_build hC hw.to3 hy)
  have hdC : (d, c) ∈ C := List.mem_of_mem_head? hd
  constructor
  · obtain ⟨E, b, e1, _⟩ := (h std a s ha (hs.wf h)).cases h1
    rw [h2] at e1
    cases e1
    apply Classical.byContradiction
    intro hn
    have hP : foundBy C (PrefixFound C) a c := by
      unfold foundBy
      rw [hc, if_neg (by decide), PrefixFound_iff hl]; exact hm
    obtain ⟨f1, f2⟩ := b.complete (d, c) hdC hP (fun hm => hn (List.mem_map.mpr ⟨_, hm, rfl⟩))
    cases E with
    | nil => have := ha.2.1; simp at f1; omega
    | cons r E =>
        have g1 := f2 r (by simp)
        have g2 := hmin r (b.sound r (by simp)).1
        simp only at g1; omega
  · intro hn
    obtain ⟨E, b, e1, _⟩ := (h' std' a s' ha (hs'.wf h')).cases h3
    rw [h4] at e1
    cases e1
    obtain ⟨r, hr, hrd⟩ := List.mem_map.mp hn
    have hrd1 : r.1 = d := congrArg Prod.fst hrd
    obtain ⟨hrC, hp⟩ := b.sound r hr
    have hrc : r.2 = c := hC.ready.unique (d := d) (by rw [← hrd1]; exact hrC) hdC
    unfold foundBy at hp
    rw [hc, if_neg (by decide), hrc] at hp
    obtain ⟨z, _, hz⟩ := hp.2 ⟨d, hd⟩
    rw [hz] at hlen
    simp at hlen

/-- the hypotheses of `C07_false`: the completions "a b", "b", "c" with ids 1, 2, 3, and the query `"a"` -/
example : LastOk [(1, [[97], [98]]), (2, [[98]]), (3, [[99]])] (lastTerm [97]) ∧ PrefixMatch (completeTerms [97]) (lastTerm [97]) [[97], [98]] ∧
    (completeTerms [97]).length + 1 < [[97], [98]].length ∧ ∀ r ∈ [(1, [[97], [98]]), (2, [[98]]), (3, [[99]])], 1 ≤ r.1 :=
  ⟨lastOk_of ⟨by decide, by decide, by decide, by decide, by decide, by decide, by decide, by decide, by decide, by decide⟩ (by decide +kernel),
    ⟨[97], by decide, by decide⟩, by decide, by decide⟩

/-! ## C30 -/

/-- where the texts are in the pool -/
theorem _root_.AC.Pool.Holds.placed {p : Pool} {texts : List Str} (hh : p.Holds texts) (i : Nat) (hi : i < texts.length) :
    ∃ b, p.offsets[i]? = some b ∧ b + texts[i].length ≤ p.data.length ∧ (p.data.drop b).take texts[i].length = texts[i] ∧
      ∀ j, i < j → j < texts.length → ∃ b', p.offsets[j]? = some b' ∧ b + texts[i].length ≤ b' := by
  have hoff : ∀ j, j < texts.length → p.offsets[j]? = some (texts.take j).flatten.length := by
    intro j hj
    rw [hh.offsets, List.getElem?_map, List.getElem?_range (by omega)]; rfl
  have hsplit : texts = texts.take i ++ texts[i] :: texts.drop (i + 1) := by
    rw [← List.drop_eq_getElem_cons hi, List.take_append_drop]
  have hflat : texts.flatten = (texts.take i).flatten ++ (texts[i] ++ (texts.drop (i + 1)).flatten) := by
    have := congrArg List.flatten hsplit
    rw [List.flatten_append, List.flatten_cons] at this
    exact this
  have hlen : texts.flatten.length = (texts.take i).flatten.length + (texts[i].length + (texts.drop (i + 1)).flatten.length) := by
    rw [hflat]; simp only [List.length_append]
  refine ⟨_, hoff i hi, by have := hh.fits; omega, ?_, ?_⟩
  · have hdata := hh.data
    have : (p.data.drop (texts.take i).flatten.length).take texts[i].length =
        ((p.data.take texts.flatten.length).drop (texts.take i).flatten.length).take texts[i].length := by
      rw [List.drop_take, List.take_take, Nat.min_eq_left (by omega)]
    rw [this, hdata, hflat, List.drop_left, List.take_left]
  · intro j hj hj'
    refine ⟨_, hoff j hj', ?_⟩
    have h1 : texts.take (i + 1) = texts.take i ++ [texts[i]] := by rw [List.take_append_getElem]
    have h2 : (texts.take (i + 1)).flatten.length = (texts.take i).flatten.length + texts[i].length := by
      rw [h1, List.flatten_append, List.length_append, List.flatten_singleton]
    have h3 : texts.take j = texts.take (i + 1) ++ (texts.drop (i + 1)).take (j - (i + 1)) := by
      conv => lhs; rw [show j = (i + 1) + (j - (i + 1)) by omega]
      rw [List.take_add]
    rw [h3, List.flatten_append, List.length_append, ← h2]; omega

/-- every result is a completion of the collection with its terms joined by single spaces; its text is at the place that the pool records
for it, inside of the array, and before the texts of the results that follow -/
def TextsInPlace (C : Coll) (p : Pool) : Prop :=
  ∃ res, p.results = .ok res ∧ (∀ e ∈ res, ∃ c, (e.1, c) ∈ C ∧ e.2 = joined c) ∧
    ∀ i (h : i < res.length), ∃ b, p.offsets[i]? = some b ∧ b + res[i].2.length ≤ p.data.length ∧
      (p.data.drop b).take res[i].2.length = res[i].2 ∧
      ∀ j, i < j → j < res.length → ∃ b', p.offsets[j]? = some b' ∧ b + res[i].2.length ≤ b'

theorem textsInPlace {p : Pool} {E : Coll} (hE : ∀ r ∈ E, r ∈ C) (e1 : p.results = .ok (E.map shown)) (e2 : p.Holds (E.map (fun r => joined r.2))) :
    TextsInPlace C p := by
  refine ⟨_, e1, ?_, ?_⟩
  · intro e he
    obtain ⟨r, hr, rfl⟩ := List.mem_map.mp he
    exact ⟨r.2, hE r hr, rfl⟩
  · intro i hi
    have hi' : i < E.length := by simpa using hi
    obtain ⟨b, f1, f2, f3, f4⟩ := e2.placed i (by simpa using hi')
    simp only [List.getElem_map] at f2 f3 f4
    refine ⟨b, f1, ?_, ?_, ?_⟩
    · simpa [shown] using f2
    · simpa [shown] using f3
    · intro j hj hj'
      simpa [shown] using f4 j hj (by simpa using hj')

/-- **C30**: the texts of the results are those of the completions, and are where the pool says. -/
theorem C30_texts (hC : ValidColl C) (hi : IsIndex C run) (std : StdLib) (a : Ask) (ha : a.Ok) {s t : Scratch} (hs : Visited run s)
    (ht : run std a s = .ok t) : TextsInPlace C t.pool := by
  obtain ⟨pre, _, h⟩ := hi.serves hC
  obtain ⟨E, b, e1, _, e2⟩ := (h std a s ha (hs.wf h)).cases ht
  exact textsInPlace (fun r hr => (b.sound r hr).1) e1 e2

/-! ## C31 -/

/-- **C31**: the answer does not depend on the searches made before, nor on the choices of the standard library. -/
theorem C31_history (hC : ValidColl C) (hi : IsIndex C run) (std std' : StdLib) (a : Ask) (ha : a.Ok) {s s' : Scratch} (hs : Visited run s)
    (hs' : Visited run s') : SameAnswer (run std a s) (run std' a s') := by
  obtain ⟨pre, _, h⟩ := hi.serves hC
  exact (h std a s ha (hs.wf h)).same hC.docs (fun _ _ => Iff.rfl) (h std' a s' ha (hs'.wf h))

/-- states after two different searches, for C07, C30 and C31 -/
example (mem : Nat → W) : ∃ x : Index1, IsIndex sampleColl x.ask ∧ ∃ s s', Visited x.ask s ∧
    x.ask StdLib.bySorting ⟨true, [98, 32], 3⟩ Scratch.fresh = .ok s ∧ Visited x.ask s' ∧
    x.ask StdLib.bySorting ⟨false, [99], 5⟩ s = .ok s' := by
  obtain ⟨x, h1, h2⟩ := Index1.exists sampleColl_valid.ready sampleColl_suits.toSuits1 mem
  have hsv := Index1.serves sampleColl_valid h2
  have a1 : Ask.Ok ⟨true, [98, 32], 3⟩ := ⟨by decide, by decide, by decide⟩
  have a2 : Ask.Ok ⟨false, [99], 5⟩ := ⟨by decide, by decide, by decide⟩
  obtain ⟨s, _, e1, e2, _⟩ := (hsv StdLib.bySorting ⟨true, [98, 32], 3⟩ Scratch.fresh a1 Scratch.fresh_wf).answer
    (room_of (by decide) (by decide))
  obtain ⟨s', _, e3, e4, _⟩ := (hsv StdLib.bySorting ⟨false, [99], 5⟩ s a2 e2).answer (room_of (by decide) (by decide))
  exact ⟨x, .type1 sampleColl_suits.toSuits1 h1, s, s', .step .fresh a1 e1, e1, .step (.step .fresh a1 e1) a2 e3, e3⟩

/-! ## C32 -/

/-- **C32**, types 1, 2 and 3: conjunctive search returns at least as many results as prefix search, and all of its results when there are fewer
than `k`. Missing from the claim: type 4, for which it is false (`C32_false4`). -/
theorem C32_partial (hC : ValidColl C) (hi : IsIndex C run) (hi' : IsIndex C run') (std std' : StdLib) (q : Str) (k : Nat)
    (ha : Ask.Ok ⟨false, q, k⟩) {s s' t t' : Scratch} {res res' : List (Nat × Str)} (hs : Visited run s) (hs' : Visited run' s')
    (h1 : run std ⟨false, q, k⟩ s = .ok t) (h2 : t.pool.results = .ok res) (h3 : run' std' ⟨true, q, k⟩ s' = .ok t')
    (h4 : t'.pool.results = .ok res') :
    res.length ≤ res'.length ∧ (res'.length < k → ∀ e ∈ res, e ∈ res') := by
  obtain ⟨pre, hp, h⟩ := hi.serves hC
  obtain ⟨pre', _, h'⟩ := hi'.serves hC
  obtain ⟨E, b, e1, _⟩ := (h std ⟨false, q, k⟩ s ha (hs.wf h)).cases h1
  obtain ⟨E', b', e1', _⟩ := (h' std' ⟨true, q, k⟩ s' ha (hs'.wf h')).cases h3
  rw [h2] at e1
  rw [h4] at e1'
  cases e1
  cases e1'
  have hpq : ∀ r ∈ C, foundBy C pre ⟨false, q, k⟩ r.2 → foundBy C pre' ⟨true, q, k⟩ r.2 := by
    intro r hr hf
    have hf' : PrefixFound C (completeTerms q) (lastTerm q) r.2 := by
      rcases hp with rfl | rfl
      · exact hf
      · exact hf.1
    obtain ⟨x, hx1, hx2⟩ := hf'
    have hsub : ∀ t ∈ completeTerms q ++ [x], t ∈ r.2 := fun t ht => hx2.subset ht
    exact ⟨fun t ht _ => hsub t (by simp [ht]), x, hsub x (by simp), hx1⟩
  refine ⟨by simpa using b.length_le hpq b', ?_⟩
  intro hlt e he
  obtain ⟨r, hr, rfl⟩ := List.mem_map.mp he
  refine List.mem_map.mpr ⟨r, ?_, rfl⟩
  apply Classical.byContradiction
  intro hn
  have := (b'.complete r (b.sound r hr).1 (hpq r (b.sound r hr).1 (b.sound r hr).2) hn).1
  simp at hlt; simp at this; omega

/-! ## C33 -/

/-- **C33**: two texts with the same last term and the same complete terms, in any order and any number of times, have the same conjunctive
results. -/
theorem C33_order (hC : ValidColl C) (hi : IsIndex C run) (std std' : StdLib) (q q' : Str) (k : Nat) (ha : Ask.Ok ⟨true, q, k⟩) (ha' : IsText q')
    (hl : lastTerm q = lastTerm q') (ht : ∀ t, t ∈ completeTerms q ↔ t ∈ completeTerms q') {s s' : Scratch} (hs : Visited run s)
    (hs' : Visited run s') : SameAnswer (run std ⟨true, q, k⟩ s) (run std' ⟨true, q', k⟩ s') := by
  obtain ⟨pre, _, h⟩ := hi.serves hC
  refine (h std ⟨true, q, k⟩ s ha (hs.wf h)).same hC.docs ?_ (h std' ⟨true, q', k⟩ s' ⟨ha', ha.2⟩ (hs'.wf h))
  intro r _
  unfold foundBy ConjFound
  simp only [if_true, hl, ht]

/-- the queries `"ab b c"` and `"b ab  b c"` -/
example : lastTerm [97, 98, 32, 98, 32, 99] = lastTerm [98, 32, 97, 98, 32, 32, 98, 32, 99] ∧
    completeTerms [97, 98, 32, 98, 32, 99] = [[97, 98], [98]] ∧ completeTerms [98, 32, 97, 98, 32, 32, 98, 32, 99] = [[98], [97, 98], [98]] := by
  decide

/-! ## C34 -/

/-- **C34**: asking for fewer results gives the beginning of the list. -/
theorem C34_fewer (hC : ValidColl C) (hi : IsIndex C run) (std std' : StdLib) (cj : Bool) (q : Str) (k k' : Nat) (hk : 1 ≤ k) (hkk : k ≤ k')
    (ha : Ask.Ok ⟨cj, q, k'⟩) {s s' t' : Scratch} {res' : List (Nat × Str)} (hs : Visited run s) (hs' : Visited run s')
    (h1 : run std' ⟨cj, q, k'⟩ s' = .ok t') (h2 : t'.pool.results = .ok res') :
    ∃ t, run std ⟨cj, q, k⟩ s = .ok t ∧ t.pool.results = .ok (res'.take k) := by
  obtain ⟨pre, _, h⟩ := hi.serves hC
  obtain ⟨E', b', e1', e2', _⟩ := (h std' ⟨cj, q, k'⟩ s' ha (hs'.wf h)).cases h1
  rw [h2] at e1'
  cases e1'
  have hbt : Spec.Best C (foundBy C pre ⟨cj, q, k⟩) k (E'.take k) := b'.take hkk
  obtain ⟨E, b, o⟩ := h std ⟨cj, q, k⟩ s ⟨ha.1, hk, Nat.le_trans hkk ha.2.2⟩ (hs.wf h)
  have hE := b.unique hC.docs (fun _ _ => Iff.rfl) hbt
  subst hE
  rcases o with ⟨_, e2, _⟩ | ⟨t, e1, _, e2, _⟩
  · exact absurd (e2'.take k) e2
  · exact ⟨t, e1, by rw [e2, List.map_take]⟩

end AC.Props
