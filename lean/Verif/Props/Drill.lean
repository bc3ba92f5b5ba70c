import Verif.Spec.Drill
import Verif.Props.Typing
import Verif.Props.Shards
/-!
# C103: the results of a query from those of its continuations
-/
namespace AC.Props
open AC Spec

section
variable {ι : Type} {C : Coll} {run : StdLib → Ask → Scratch → M Scratch}

open Classical in
theorem _root_.AC.Spec.Best.filtered {Q : List Str → Prop} {k : Nat} {E : Coll} (b : Spec.Best C Q k E) :
    Spec.Best (C.filter (fun r => decide (Q r.2))) Q k E :=
  ⟨fun r hr => ⟨List.mem_filter.mpr ⟨(b.sound r hr).1, decide_eq_true (b.sound r hr).2⟩, (b.sound r hr).2⟩, b.sorted, b.le,
    fun r hr hq => b.complete r (List.mem_filter.mp hr).1 hq⟩

/-- the best of what one of several properties admits -/
theorem mergeBy {P : List Str → Prop} {Q : ι → List Str → Prop} {k : Nat} {E : Coll} {E' : ι → Coll} (b : Spec.Best C P k E)
    (b' : ∀ i, Spec.Best C (Q i) k (E' i)) (h : ∀ r ∈ C, P r.2 ↔ ∃ i, Q i r.2) : MergeOf k (fun i => (E' i).map shown) (E.map shown) := by
  classical
  refine mergeOf (C := C.filter (fun r => decide (P r.2))) (D := fun i => C.filter (fun r => decide (Q i r.2))) ?_ b.filtered (fun i => (b' i).filtered) ?_
  · intro r
    constructor
    · intro hr
      obtain ⟨h1, h2⟩ := List.mem_filter.mp hr
      obtain ⟨i, hi⟩ := (h r h1).mp (of_decide_eq_true h2)
      exact ⟨i, List.mem_filter.mpr ⟨h1, decide_eq_true hi⟩⟩
    · rintro ⟨i, hr⟩
      obtain ⟨h1, h2⟩ := List.mem_filter.mp hr
      exact List.mem_filter.mpr ⟨h1, decide_eq_true ((h r h1).mpr ⟨i, of_decide_eq_true h2⟩)⟩
  · intro i r hr
    obtain ⟨h1, h2⟩ := List.mem_filter.mp hr
    exact ⟨fun _ => of_decide_eq_true h2, fun hq => (h r h1).mpr ⟨i, hq⟩⟩

theorem typedIn_best (hC : ValidColl C) (q : Str) {k : Nat} (hk : 1 ≤ k) :
    Spec.Best C (fun c => joined c = squeeze q) k (C.filter (fun r => joined r.2 == squeeze q)) := by
  have hone : ∀ L : Coll, L.Pairwise (fun a b => a.2 < b.2) → (∀ r ∈ L, r ∈ C ∧ joined r.2 = squeeze q) → L = [] ∨ ∃ r, L = [r] := by
    intro L hL hm
    match L, hL, hm with
    | [], _, _ => exact .inl rfl
    | [r], _, _ => exact .inr ⟨r, rfl⟩
    | r :: r' :: L, hL, hm =>
        obtain ⟨g1, g2⟩ := hm r (by simp)
        obtain ⟨g3, g4⟩ := hm r' (by simp)
        have e1 := terms_of_squeeze (hC.nonempty _ g1) (fun t ht => (hC.words _ g1 t ht).2.2) g2.symm
        have e2 := terms_of_squeeze (hC.nonempty _ g3) (fun t ht => (hC.words _ g3 t ht).2.2) g4.symm
        have := (List.pairwise_cons.mp hL).1 r' (by simp)
        rw [← e1, ← e2] at this
        exact absurd this (List.lt_irrefl _)
  have hm : ∀ r ∈ C.filter (fun r => joined r.2 == squeeze q), r ∈ C ∧ joined r.2 = squeeze q := by
    intro r hr
    obtain ⟨h1, h2⟩ := List.mem_filter.mp hr
    exact ⟨h1, by simpa using h2⟩
  have hs : (C.filter (fun r => joined r.2 == squeeze q)).Pairwise (fun a b => a.2 < b.2) := by
    have := hC.sorted
    rw [List.pairwise_map] at this
    exact this.filter _
  refine ⟨hm, ?_, ?_, fun r hr hq hn => absurd (List.mem_filter.mpr ⟨hr, by simpa using hq⟩) hn⟩
  · rcases hone _ hs hm with e | ⟨r, e⟩ <;> rw [e]
    · exact .nil
    · exact List.pairwise_singleton _ _
  · rcases hone _ hs hm with e | ⟨r, e⟩ <;> rw [e]
    · exact Nat.zero_le _
    · exact hk

/-- a text that begins with the query is the query, or begins with one of its continuations -/
theorem textMatch_next {ch : ι → Nat} {q : Str} (hcov : ∀ c, NextIn C q c → ∃ i, ch i = c) {r : Nat × List Str} (hr : r ∈ C) :
    TextMatch q r.2 ↔ joined r.2 = squeeze q ∨ ∃ i, TextMatch (q ++ [ch i]) r.2 := by
  constructor
  · rintro ⟨w, hw⟩
    cases w with
    | nil => exact .inl (by rw [← hw, List.append_nil])
    | cons c w =>
        have hp : squeeze q ++ [c] <+: joined r.2 := ⟨w, by rw [← hw]; simp⟩
        obtain ⟨i, rfl⟩ := hcov c ⟨r, hr, hp⟩
        refine .inr ⟨i, ?_⟩
        obtain ⟨b, e⟩ := squeezeFrom_append q [ch i] true
        show squeezeFrom true (q ++ [ch i]) <+: _
        rw [e]
        have hq : squeezeFrom b [ch i] = [] ∨ squeezeFrom b [ch i] = [ch i] := by
          by_cases hc : ch i = space
          · cases b <;> simp [squeezeFrom, hc]
          · simp [squeezeFrom, hc]
        rcases hq with hq | hq <;> rw [hq]
        · rw [List.append_nil]
          exact List.IsPrefix.trans (List.prefix_append _ _) hp
        · exact hp
  · rintro (h | ⟨i, h⟩)
    · unfold TextMatch
      rw [h]
      exact List.prefix_refl _
    · exact TextMatch.of_append h

theorem firstApart_append (hC : ValidColl C) {q : Str} (hf : FirstApart C q) (w : Str) : FirstApart C (q ++ w) := by
  rintro c ⟨d, hd⟩ hm
  have hc : (d, c) ∈ C := List.mem_of_mem_head? hd
  exact hf c ⟨d, hd⟩ ((textMatch_iff hC q (d, c) hc).mpr (TextMatch.of_append ((textMatch_iff hC _ (d, c) hc).mp hm)))

theorem merge_prefix (hC : ValidColl C) {q : Str} {k : Nat} (hk : 1 ≤ k) {ch : ι → Nat} (hcov : ∀ c, NextIn C q c → ∃ i, ch i = c) {E : Coll} {E' : ι → Coll}
    (b : Spec.Best C (PrefixMatch (completeTerms q) (lastTerm q)) k E)
    (b' : ∀ i, Spec.Best C (PrefixMatch (completeTerms (q ++ [ch i])) (lastTerm (q ++ [ch i]))) k (E' i)) : MergeOf k (withTyped C q (fun i => (E' i).map shown)) (E.map shown) := by
  have hb : ∀ o : Option ι, ∃ (Q : List Str → Prop) (F : Coll), Spec.Best C Q k F ∧ withTyped C q (fun i => (E' i).map shown) o = F.map shown ∧
      ∀ r ∈ C, Q r.2 ↔ match o with | none => joined r.2 = squeeze q | some i => TextMatch (q ++ [ch i]) r.2 := by
    intro o
    cases o with
    | none => exact ⟨_, _, typedIn_best hC q hk, rfl, fun _ _ => Iff.rfl⟩
    | some i => exact ⟨_, _, b' i, rfl, textMatch_iff hC _⟩
  obtain ⟨Q, hQ⟩ := Classical.axiomOfChoice hb
  obtain ⟨F, hF⟩ := Classical.axiomOfChoice hQ
  rw [show withTyped C q (fun i => (E' i).map shown) = fun o => (F o).map shown from funext fun o => (hF o).2.1]
  refine mergeBy b (fun o => (hF o).1) fun r hr => ?_
  rw [textMatch_iff hC q r hr, textMatch_next hcov hr]
  constructor
  · rintro (h | ⟨i, h⟩)
    · exact ⟨none, ((hF none).2.2 r hr).mpr h⟩
    · exact ⟨some i, ((hF (some i)).2.2 r hr).mpr h⟩
  · rintro ⟨o, h⟩
    have h' := ((hF o).2.2 r hr).mp h
    cases o with
    | none => exact .inl h'
    | some i => exact .inr ⟨i, h'⟩

/-- **C103**, types 1, 2 and 3, prefix search: the results of a query are the `k` best of the results of its continuations by one character and of the completion that it is the text
of. The continuations are any that contain those that occur, in any states of the index. Missing from the claim: queries and continuations that end with a strict beginning of the first term
(`C103_false`), and queries that the first completion matches (with types 2 and 3; see C80). -/
theorem C103_prefix_partial (hC : ValidColl C) (hi : IsIndex C run) (std : StdLib) (std' : ι → StdLib) (q : Str) (k : Nat) (ha : Ask.Ok ⟨false, q, k⟩) (ch : ι → Nat)
    (hch : ∀ i, IsText [ch i]) (hcov : ∀ c, NextIn C q c → ∃ i, ch i = c) (hl : LastOk C (lastTerm q)) (hl' : ∀ i, LastOk C (lastTerm (q ++ [ch i]))) (hf : FirstApart C q)
    {s t : Scratch} {s' t' : ι → Scratch} {res : List (Nat × Str)} {res' : ι → List (Nat × Str)} (hs : Visited run s) (hs' : ∀ i, Visited run (s' i))
    (h1 : run std ⟨false, q, k⟩ s = .ok t) (h2 : t.pool.results = .ok res) (h3 : ∀ i, run (std' i) ⟨false, q ++ [ch i], k⟩ (s' i) = .ok (t' i))
    (h4 : ∀ i, (t' i).pool.results = .ok (res' i)) : MergeOf k (withTyped C q res') res := by
  obtain ⟨pre, hp, h⟩ := hi.serves hC
  have key : ∀ (std : StdLib) (q : Str), LastOk C (lastTerm q) → FirstApart C q → Ask.Ok ⟨false, q, k⟩ → ∀ {s t : Scratch} {res : List (Nat × Str)}, Visited run s →
      run std ⟨false, q, k⟩ s = .ok t → t.pool.results = .ok res → ∃ E, Spec.Best C (PrefixMatch (completeTerms q) (lastTerm q)) k E ∧ res = E.map shown := by
    intro std q hl hf ha s t res hs h1 h2
    obtain ⟨E, b, e1, _⟩ := (h std _ s ha (hs.wf h)).cases h1
    rw [h2] at e1
    injection e1 with e1
    have : foundBy C pre ⟨false, q, k⟩ = PrefixMatch (completeTerms q) (lastTerm q) := funext fun c => propext (pre_iff hl hf hp k c)
    rw [this] at b
    exact ⟨E, b, e1⟩
  obtain ⟨E, b, rfl⟩ := key std q hl hf ha hs h1 h2
  obtain ⟨E', hE'⟩ := Classical.axiomOfChoice fun i => key (std' i) (q ++ [ch i]) (hl' i) (firstApart_append hC hf _) (ask_append ha (hch i)) (hs' i) (h3 i) (h4 i)
  rw [show res' = fun i => (E' i).map shown from funext fun i => (hE' i).2]
  exact merge_prefix hC ha.2.1 hcov b (fun i => (hE' i).1)

/-- **C103**, type 4, prefix search, like types 2 and 3. Missing from the claim: what is missing with types 2 and 3. -/
theorem C103_type4_partial (hC : ValidColl C) (hw : Suits4 C) {std₀ : StdLib} {m : Nat} {mem : Nat → W} {x : Index4} (hb : Index4.build std₀ m (Pre.run C) mem = .ok x)
    (std : StdLib) (std' : ι → StdLib) (q : Str) (k : Nat) (ha : Ask.Ok ⟨false, q, k⟩) (ch : ι → Nat)
    (hch : ∀ i, IsText [ch i]) (hcov : ∀ c, NextIn C q c → ∃ i, ch i = c) (hl : LastOk C (lastTerm q)) (hl' : ∀ i, LastOk C (lastTerm (q ++ [ch i]))) (hf : FirstApart C q)
    {s t : Scratch} {s' t' : ι → Scratch} {res : List (Nat × Str)} {res' : ι → List (Nat × Str)} (hs : Visited x.ask s) (hs' : ∀ i, Visited x.ask (s' i))
    (h1 : x.ask std ⟨false, q, k⟩ s = .ok t) (h2 : t.pool.results = .ok res) (h3 : ∀ i, x.ask (std' i) ⟨false, q ++ [ch i], k⟩ (s' i) = .ok (t' i))
    (h4 : ∀ i, (t' i).pool.results = .ok (res' i)) : MergeOf k (withTyped C q res') res := by
  obtain ⟨_, hx⟩ := Index4.rep_of_build hC hw.toSuits3 hb
  have key : ∀ (std : StdLib) (q : Str), LastOk C (lastTerm q) → FirstApart C q → Ask.Ok ⟨false, q, k⟩ → ∀ {s t : Scratch} {res : List (Nat × Str)}, Visited x.ask s →
      x.ask std ⟨false, q, k⟩ s = .ok t → t.pool.results = .ok res → ∃ E, Spec.Best C (PrefixMatch (completeTerms q) (lastTerm q)) k E ∧ res = E.map shown := by
    intro std q hl hf ha s t res hs h1 h2
    obtain ⟨E, b, e1, _⟩ := (Base.prefix_spec std hC.ready hx.base hx.dict hx.built ha.1 ha.2.1 ha.2.2 (type4_wf hC hw hb hs)).cases h1
    rw [h2] at e1
    injection e1 with e1
    have : PrefixFound2 C (completeTerms q) (lastTerm q) = PrefixMatch (completeTerms q) (lastTerm q) := funext fun c => propext (prefixFound2_iff hl hf c)
    rw [this] at b
    exact ⟨E, b, e1⟩
  obtain ⟨E, b, rfl⟩ := key std q hl hf ha hs h1 h2
  obtain ⟨E', hE'⟩ := Classical.axiomOfChoice fun i => key (std' i) (q ++ [ch i]) (hl' i) (firstApart_append hC hf _) (ask_append ha (hch i)) (hs' i) (h3 i) (h4 i)
  rw [show res' = fun i => (E' i).map shown from funext fun i => (hE' i).2]
  exact merge_prefix hC ha.2.1 hcov b (fun i => (hE' i).1)

/-! ## Conjunctive search -/

theorem typed_end (q : Str) : completeTerms (q ++ [space]) = completeTerms q ++ [lastTerm q].filter (fun p => !p.isEmpty) ∧ lastTerm (q ++ [space]) = [] := by
  have e : pieces (q ++ [space]) = pieces q ++ [[]] := pieces_append_space q []
  refine ⟨?_, by rw [lastTerm, e]; simp⟩
  unfold completeTerms
  rw [e, List.dropLast_concat, ← List.filter_append]
  congr 1
  rw [lastTerm, List.getLastD_eq_getLast?, List.getLast?_eq_some_getLast (pieces_ne_nil q), Option.getD_some, List.dropLast_concat_getLast]

/-- what conjunctive search finds for a query is what it finds for one of its continuations -/
theorem conjMatch_next (hC : ValidColl C) {q : Str} {ch : ι → Nat} (hcov : ∀ c, NextInTerm C q c → ∃ i, ch i = c) (hsp : IsTerm C (lastTerm q) → ∃ i, ch i = space)
    (hns : ∀ i, ch i = space → lastTerm q = [] ∨ IsTerm C (lastTerm q)) {r : Nat × List Str} (hr : r ∈ C) :
    ConjMatch C (completeTerms q) (lastTerm q) r.2 ↔ ∃ i, ConjMatch C (completeTerms (q ++ [ch i])) (lastTerm (q ++ [ch i])) r.2 := by
  constructor
  · rintro ⟨g1, x, hx, w, hw⟩
    cases w with
    | nil =>
        rw [List.append_nil] at hw
        have ht : IsTerm C (lastTerm q) := ⟨r, hr, by rw [hw]; exact hx⟩
        obtain ⟨i, hi⟩ := hsp ht
        refine ⟨i, ?_, x, hx, ?_⟩
        · rw [hi, (typed_end q).1]
          intro t ht' hk
          rcases List.mem_append.mp ht' with ht' | ht'
          · exact g1 t ht' hk
          · rw [List.mem_singleton.mp (List.mem_filter.mp ht').1, hw]
            exact hx
        · rw [hi, (typed_end q).2]
          exact List.nil_prefix
    | cons c w =>
        have hp : lastTerm q ++ [c] <+: x := ⟨w, by rw [← hw]; simp⟩
        obtain ⟨i, rfl⟩ := hcov c ⟨x, ⟨r, hr, hx⟩, hp⟩
        have hc : space ∉ [ch i] := by
          intro hm
          refine (hC.words r hr x hx).2.2 ?_
          rw [← hw, List.mem_singleton.mp hm]
          simp
        obtain ⟨e1, e2⟩ := typed_word q hc
        refine ⟨i, ?_, x, hx, ?_⟩
        · rw [e1]
          exact g1
        · rw [e2]
          exact hp
  · rintro ⟨i, g1, x, hx, hp⟩
    by_cases hc : ch i = space
    · rw [hc, (typed_end q).1] at g1
      refine ⟨fun t ht hk => g1 t (List.mem_append_left _ ht) hk, ?_⟩
      rcases hns i hc with e | ht
      · exact ⟨x, hx, by rw [e]; exact List.nil_prefix⟩
      · by_cases he : lastTerm q = []
        · exact ⟨x, hx, by rw [he]; exact List.nil_prefix⟩
        · refine ⟨lastTerm q, g1 _ (List.mem_append_right _ (List.mem_filter.mpr ⟨by simp, ?_⟩)) ht, List.prefix_refl _⟩
          cases hq : lastTerm q with
          | nil => exact absurd hq he
          | cons _ _ => rfl
    · obtain ⟨e1, e2⟩ := typed_word q (u := [ch i]) (by simpa using Ne.symm hc)
      rw [e1] at g1
      rw [e2] at hp
      exact ⟨g1, x, hx, List.IsPrefix.trans (List.prefix_append _ _) hp⟩

/-- **C103**, types 1, 2 and 3, conjunctive search: the results of a query are the `k` best of the results of its continuations by one character, where the space is one of them if and only if the
last word is a term (or empty). Missing from the claim: queries and continuations that end with a strict beginning of the first term, and the space after an unknown word (`C103_false_conj`). -/
theorem C103_conj_partial (hC : ValidColl C) (hi : IsIndex C run) (std : StdLib) (std' : ι → StdLib) (q : Str) (k : Nat) (ha : Ask.Ok ⟨true, q, k⟩) (ch : ι → Nat)
    (hch : ∀ i, IsText [ch i]) (hcov : ∀ c, NextInTerm C q c → ∃ i, ch i = c) (hsp : IsTerm C (lastTerm q) → ∃ i, ch i = space)
    (hns : ∀ i, ch i = space → lastTerm q = [] ∨ IsTerm C (lastTerm q)) (hl : LastOk C (lastTerm q)) (hl' : ∀ i, LastOk C (lastTerm (q ++ [ch i])))
    {s t : Scratch} {s' t' : ι → Scratch} {res : List (Nat × Str)} {res' : ι → List (Nat × Str)} (hs : Visited run s) (hs' : ∀ i, Visited run (s' i))
    (h1 : run std ⟨true, q, k⟩ s = .ok t) (h2 : t.pool.results = .ok res) (h3 : ∀ i, run (std' i) ⟨true, q ++ [ch i], k⟩ (s' i) = .ok (t' i))
    (h4 : ∀ i, (t' i).pool.results = .ok (res' i)) : MergeOf k res' res := by
  obtain ⟨pre, _, h⟩ := hi.serves hC
  have key : ∀ (std : StdLib) (q : Str), LastOk C (lastTerm q) → Ask.Ok ⟨true, q, k⟩ → ∀ {s t : Scratch} {res : List (Nat × Str)}, Visited run s →
      run std ⟨true, q, k⟩ s = .ok t → t.pool.results = .ok res → ∃ E, Spec.Best C (ConjMatch C (completeTerms q) (lastTerm q)) k E ∧ res = E.map shown := by
    intro std q hl ha s t res hs h1 h2
    obtain ⟨E, b, e1, _⟩ := (h std _ s ha (hs.wf h)).cases h1
    rw [h2] at e1
    injection e1 with e1
    have : foundBy C pre ⟨true, q, k⟩ = ConjMatch C (completeTerms q) (lastTerm q) := funext fun c => propext (ConjFound_iff hl c)
    rw [this] at b
    exact ⟨E, b, e1⟩
  obtain ⟨E, b, rfl⟩ := key std q hl ha hs h1 h2
  obtain ⟨E', hE'⟩ := Classical.axiomOfChoice fun i => key (std' i) (q ++ [ch i]) (hl' i) (ask_append ha (hch i)) (hs' i) (h3 i) (h4 i)
  rw [show res' = fun i => (E' i).map shown from funext fun i => (hE' i).2]
  exact mergeBy b (fun i => (hE' i).1) fun r hr => conjMatch_next hC hcov hsp hns hr

/-- **C103**, type 4, conjunctive search. Missing from the claim: besides what is missing for the other types, queries or continuations that type 4 does not answer completely (C06;
`C103_false_conj4`). -/
theorem C103_conj4_partial (hC : ValidColl C) (hw : Suits4 C) {std₀ : StdLib} {m : Nat} {mem : Nat → W} {x : Index4} (hb : Index4.build std₀ m (Pre.run C) mem = .ok x)
    {B : List (List Str)} (hB : IsBlocks C m B) (std : StdLib) (std' : ι → StdLib) (q : Str) (k : Nat) (ha : Ask.Ok ⟨true, q, k⟩) (ch : ι → Nat)
    (hch : ∀ i, IsText [ch i]) (hcov : ∀ c, NextInTerm C q c → ∃ i, ch i = c) (hsp : IsTerm C (lastTerm q) → ∃ i, ch i = space)
    (hns : ∀ i, ch i = space → lastTerm q = [] ∨ IsTerm C (lastTerm q)) (hl : LastOk C (lastTerm q)) (hl' : ∀ i, LastOk C (lastTerm (q ++ [ch i])))
    (hq : Complete4 C B q) (hq' : ∀ i, Complete4 C B (q ++ [ch i]))
    {s t : Scratch} {s' t' : ι → Scratch} {res : List (Nat × Str)} {res' : ι → List (Nat × Str)} (hs : Visited x.ask s) (hs' : ∀ i, Visited x.ask (s' i))
    (h1 : x.ask std ⟨true, q, k⟩ s = .ok t) (h2 : t.pool.results = .ok res) (h3 : ∀ i, x.ask (std' i) ⟨true, q ++ [ch i], k⟩ (s' i) = .ok (t' i))
    (h4 : ∀ i, (t' i).pool.results = .ok (res' i)) : MergeOf k res' res := by
  obtain ⟨_, hx⟩ := Index4.rep_of_build hC hw.toSuits3 hb
  have key : ∀ (std : StdLib) (q : Str), LastOk C (lastTerm q) → Complete4 C B q → Ask.Ok ⟨true, q, k⟩ → ∀ {s t : Scratch} {res : List (Nat × Str)}, Visited x.ask s →
      x.ask std ⟨true, q, k⟩ s = .ok t → t.pool.results = .ok res → ∃ E, Spec.Best C (ConjMatch C (completeTerms q) (lastTerm q)) k E ∧ res = E.map shown := by
    intro std q hl hq ha s t res hs h1 h2
    obtain ⟨S, r1, r2⟩ := Index4.conj_spec hC.ready std hx hw.ids ha.1
    rw [C06_blocks_unique (hC.ready.blocks hx.inverted.cut) hB] at r1
    exact ⟨_, r1.best hC hB hl hq.1 hq.2 k, (r2 q ha.1 rfl (fun _ => Iff.rfl) k ha.2.1 ha.2.2 s (type4_wf hC hw hb hs)).results h1 h2⟩
  obtain ⟨E, b, rfl⟩ := key std q hl hq ha hs h1 h2
  obtain ⟨E', hE'⟩ := Classical.axiomOfChoice fun i => key (std' i) (q ++ [ch i]) (hl' i) (hq' i) (ask_append ha (hch i)) (hs' i) (h3 i) (h4 i)
  rw [show res' = fun i => (E' i).map shown from funext fun i => (hE' i).2]
  exact mergeBy b (fun i => (hE' i).1) fun r hr => conjMatch_next hC hcov hsp hns hr

/-! ## Negations -/

/-- **C103 is false** for the query of one word that lacks the last character of the first term, when this term is the best completion: the completion is shown for the continuation, and not for the query. -/
theorem C103_false (hC : ValidColl C) (hi : IsIndex C run) (std : StdLib) (std' : ι → StdLib) (q : Str) (k : Nat) (ha : Ask.Ok ⟨false, q, k⟩) (ch : ι → Nat) {i : ι}
    (hch : IsText [ch i]) {d : Nat} (hu : IsFirstTerm C (q ++ [ch i])) (hsp : space ∉ q) (hne : q ≠ []) (hc : (d, [q ++ [ch i]]) ∈ C) (hmin : ∀ r ∈ C, d ≤ r.1)
    {s t : Scratch} {s' t' : ι → Scratch} {res : List (Nat × Str)} {res' : ι → List (Nat × Str)} (hs : Visited run s) (hs' : ∀ i, Visited run (s' i))
    (h1 : run std ⟨false, q, k⟩ s = .ok t) (h2 : t.pool.results = .ok res) (h3 : ∀ i, run (std' i) ⟨false, q ++ [ch i], k⟩ (s' i) = .ok (t' i))
    (h4 : ∀ i, (t' i).pool.results = .ok (res' i)) : ¬ MergeOf k (withTyped C q res') res := by
  obtain ⟨g1, g2⟩ := C80_false hC hi std (std' i) q [ch i] k ha hch (u := q ++ [ch i]) (ts := []) hu hsp hne (List.prefix_append _ _) (by simp) hc rfl hs (hs' i) h1 h2 (h3 i) (h4 i)
  have hdoc : ∀ (std : StdLib) (a : Ask), a.Ok → ∀ {s t : Scratch} {res : List (Nat × Str)}, Visited run s → run std a s = .ok t → t.pool.results = .ok res → ∀ e ∈ res, d ≤ e.1 := by
    intro std a ha s t res hs h1 h2 e he
    obtain ⟨pre, _, h⟩ := hi.serves hC
    obtain ⟨E, b, e1, _⟩ := (h std _ s ha (hs.wf h)).cases h1
    rw [h2] at e1
    cases e1
    obtain ⟨r, hr, rfl⟩ := List.mem_map.mp he
    exact hmin r (b.sound r hr).1
  have none_better : ∀ {L : List (Nat × Str)}, (∀ e ∈ L, d ≤ e.1) → ¬ (L.length = k ∧ ∀ f ∈ L, f.1 < d) := by
    rintro L hL ⟨hk, hlt⟩
    cases L with
    | nil =>
        have hk' : 1 ≤ k := ha.2.1
        simp at hk
        omega
    | cons e L =>
        have := hL e (by simp)
        have := hlt e (by simp)
        omega
  intro hm
  rcases g1 with g1 | g1
  · exact none_better (hdoc std _ ha hs h1 h2) (hm.complete (some i) _ g1 fun hin => g2 (List.mem_map.mpr ⟨_, hin, rfl⟩))
  · exact none_better (hdoc (std' i) _ (ask_append ha hch) (hs' i) (h3 i) (h4 i)) g1

/-- **C103 is false** for conjunctive search and the continuation by a space of a word that no term begins with: the word is then ignored, and all completions match. -/
theorem C103_false_conj (hC : ValidColl C) (hi : IsIndex C run) (std : StdLib) (std' : ι → StdLib) (q : Str) (k : Nat) (ha : Ask.Ok ⟨true, q, k⟩) (hsp : space ∉ q)
    (hno : ∀ t, IsTerm C t → ¬ q <+: t) (ch : ι → Nat) {i : ι} (hi' : ch i = space)
    {s t : Scratch} {s' t' : ι → Scratch} {res : List (Nat × Str)} {res' : ι → List (Nat × Str)} (hs : Visited run s) (hs' : ∀ i, Visited run (s' i))
    (h1 : run std ⟨true, q, k⟩ s = .ok t) (h2 : t.pool.results = .ok res) (h3 : ∀ i, run (std' i) ⟨true, q ++ [ch i], k⟩ (s' i) = .ok (t' i))
    (h4 : ∀ i, (t' i).pool.results = .ok (res' i)) : ¬ MergeOf k res' res := by
  have h3' := h3 i
  rw [hi'] at h3'
  obtain ⟨g1, g2⟩ := C80_false_conj hC hi std (std' i) q k ha hsp hno hs (hs' i) h1 h2 h3' (h4 i)
  intro hm
  have hk := ha.2.1
  simp only at hk
  obtain ⟨r, hr⟩ := List.exists_mem_of_ne_nil _ hC.ne
  obtain ⟨e, he⟩ : ∃ e, e ∈ res' i := by
    rcases g2 r hr with h | ⟨h, _⟩
    · exact ⟨_, h⟩
    · exact List.exists_mem_of_ne_nil _ (by rintro e; rw [e] at h; simp at h; omega)
  have := (hm.complete i e he (by rw [g1]; simp)).1
  rw [g1] at this
  simp at this
  omega

/-- **C103 is false** for conjunctive search of type 4: the query is a term, the space is its only continuation (as for a term that is not the beginning of another one), and the best completion has
this term. Then the completion is shown for the query, and skipped for the query followed by a space. -/
theorem C103_false_conj4 (hC : ValidColl C) (hw : Suits4 C) {std₀ : StdLib} {m : Nat} {mem : Nat → W} {x : Index4} (hb : Index4.build std₀ m (Pre.run C) mem = .ok x)
    {B : List (List Str)} (hB : IsBlocks C m B) (std : StdLib) (std' : ι → StdLib) (q : Str) (k : Nat) (ha : Ask.Ok ⟨true, q, k⟩) (hsp : space ∉ q) (hne : q ≠ []) (hl : LastOk C q)
    (hone : ∃ b ∈ B, ∀ y, IsTerm C y → q <+: y → y ∈ b) (ch : ι → Nat) (hch : ∀ i, ch i = space) {d : Nat} {c : List Str} (hc : (d, c) ∈ C) (hqc : q ∈ c)
    (hmin : ∀ r ∈ C, d ≤ r.1)
    {s t : Scratch} {s' t' : ι → Scratch} {res : List (Nat × Str)} {res' : ι → List (Nat × Str)} (hs : Visited x.ask s) (hs' : ∀ i, Visited x.ask (s' i))
    (h1 : x.ask std ⟨true, q, k⟩ s = .ok t) (h2 : t.pool.results = .ok res) (h3 : ∀ i, x.ask (std' i) ⟨true, q ++ [ch i], k⟩ (s' i) = .ok (t' i))
    (h4 : ∀ i, (t' i).pool.results = .ok (res' i)) : ¬ MergeOf k res' res := by
  obtain ⟨_, hx⟩ := Index4.rep_of_build hC hw.toSuits3 hb
  have hct : completeTerms q = [] := completeTerms_word hsp
  have hlt : lastTerm q = q := lastTerm_word hsp
  have hk : 1 ≤ k := ha.2.1
  obtain ⟨S, r1, r2⟩ := Index4.conj_spec hC.ready std hx hw.ids ha.1
  rw [C06_blocks_unique (hC.ready.blocks hx.inverted.cut) hB] at r1
  have b := r1.best hC hB (by rw [hlt]; exact hl) (by rw [hlt]; exact hone) (.inl (by rw [hct]; simp)) k
  have e := (r2 q ha.1 rfl (fun _ => Iff.rfl) k ha.2.1 ha.2.2 s (type4_wf hC hw hb hs)).results h1 h2
  subst e
  have hin : (d, joined c) ∈ (S.take k).map shown := by
    refine List.mem_map.mpr ⟨(d, c), ?_, rfl⟩
    apply Classical.byContradiction
    intro hn
    obtain ⟨g1, g2⟩ := b.complete (d, c) hc ⟨by rw [hct]; simp, q, hqc, by rw [hlt]; exact List.prefix_refl _⟩ hn
    cases hS : S.take k with
    | nil => rw [hS] at g1; simp at g1; omega
    | cons r _ =>
        have hr : r ∈ S.take k := by rw [hS]; simp
        have := g2 r hr
        have := hmin r (b.sound r hr).1
        simp only at *
        omega
  intro hm
  obtain ⟨i, hi⟩ := hm.sound _ hin
  have h3' := h3 i
  rw [hch i] at h3'
  have ha' : Ask.Ok ⟨true, q ++ [space], k⟩ := ask_append ha (by decide)
  obtain ⟨S', r1', r2'⟩ := Index4.conj_spec hC.ready (std' i) hx hw.ids ha'.1
  rw [C06_blocks_unique (hC.ready.blocks hx.inverted.cut) hB] at r1'
  have e' := (r2' _ ha'.1 rfl (fun _ => Iff.rfl) k ha.2.1 ha.2.2 (s' i) (type4_wf hC hw hb (hs' i))).results h3' (h4 i)
  rw [e'] at hi
  obtain ⟨r, hr, hd⟩ := List.mem_map.mp hi
  have hrS := List.mem_of_mem_take hr
  have hd1 : r.1 = d := congrArg (fun z : Nat × Str => z.1) hd
  have hct' : completeTerms (q ++ [space]) = [q] := by
    rw [(typed_end q).1, hct, hlt]
    cases q with
    | nil => exact absurd rfl hne
    | cons _ _ => rfl
  have hkn : ∃ t ∈ completeTerms (q ++ [space]), IsTerm C t := ⟨q, by rw [hct']; simp, _, hc, hqc⟩
  obtain ⟨bl, hbl, hall⟩ := hone
  have hqb : q ∈ bl := hall q ⟨_, hc, hqc⟩ (List.prefix_refl _)
  refine ((r1'.inter hkn).2.1 _ hrS).2.1 ⟨bl, hbl, ?_, ?_, ?_⟩
  · rw [hct']
    intro t ht _
    rw [List.mem_singleton.mp ht]
    exact hqb
  · have : r.2 = c := hC.ready.unique (d := d) (by rw [← hd1]; exact r1'.mem r hrS) hc
    exact ⟨q, by rw [this]; exact hqc, hqb⟩
  · intro r' hr' _
    rw [hd1]
    exact hmin r' hr'

end

/-! ## Examples -/

/-- a space and "x" -/
def spaceOrX (i : Bool) : Nat := if i then space else 120

theorem spaceOrX_ok (i : Bool) : LastOk sampleColl (lastTerm ([98] ++ [spaceOrX i])) := by
  cases i with
  | true => exact fun _ _ _ => .inl (by decide)
  | false => exact lastOk_of sampleColl_valid (by decide +kernel)

theorem sample_next {c : Nat} (h : NextIn sampleColl [98] c) : c = space := by
  obtain ⟨r, hr, hp⟩ := h
  have hs : squeeze [98] = [98] := by decide
  rw [hs] at hp
  simp only [sampleColl, List.mem_cons, List.not_mem_nil, or_false] at hr
  rcases hr with rfl | rfl | rfl | rfl | rfl <;> simp [joined, List.cons_prefix_cons] at hp <;> exact hp

theorem sample_nextTerm {c : Nat} (h : NextInTerm sampleColl [98] c) : False := by
  obtain ⟨t, ht, hp⟩ := h
  have hs : lastTerm [98] = [98] := by decide
  rw [hs] at hp
  rw [sampleColl_terms] at ht
  simp only [List.mem_cons, List.not_mem_nil, or_false] at ht
  rcases ht with rfl | rfl | rfl <;> simp [List.cons_prefix_cons] at hp

/-- the query "b" of the sample, its continuations "b " and "bx", and the completion "b": both searches of the three types -/
example (std : StdLib) {run : StdLib → Ask → Scratch → M Scratch} (hi : IsIndex sampleColl run) (cj : Bool) : typedIn sampleColl [98] = [(0, [98])] ∧
    ∃ t res, run std ⟨cj, [98], 3⟩ Scratch.fresh = .ok t ∧ t.pool.results = .ok res ∧ ∃ (t' : Bool → Scratch) (res' : Bool → List (Nat × Str)),
      (∀ i, run std ⟨cj, [98] ++ [spaceOrX i], 3⟩ t = .ok (t' i)) ∧ (∀ i, (t' i).pool.results = .ok (res' i)) ∧
      MergeOf 3 (if cj then fun o => (o.map res').getD [] else withTyped sampleColl [98] res') res := by
  have ha : Ask.Ok ⟨cj, [98], 3⟩ := ⟨show IsText [98] by decide, show 1 ≤ 3 by decide, show 3 ≤ MAX_K by decide⟩
  have hch : ∀ i, IsText [spaceOrX i] := by decide
  obtain ⟨t, res, h1, h2⟩ := runs sampleColl_valid hi std _ ha (show 3 ≤ 8 by decide) .fresh
  have hv : Visited run t := .step .fresh ha h1
  obtain ⟨t', ht'⟩ := Classical.axiomOfChoice (fun i => runs sampleColl_valid hi std _ (ask_append ha (hch i)) (show 3 ≤ 8 by decide) hv)
  obtain ⟨res', hr'⟩ := Classical.axiomOfChoice ht'
  have hl : LastOk sampleColl (lastTerm [98]) := lastOk_of sampleColl_valid (by decide +kernel)
  refine ⟨by decide, t, res, h1, h2, t', res', fun i => (hr' i).1, fun i => (hr' i).2, ?_⟩
  cases cj with
  | true =>
      have hm := C103_conj_partial sampleColl_valid hi std (fun _ => std) [98] 3 ha spaceOrX hch (fun c hc => (sample_nextTerm hc).elim) (fun _ => ⟨true, rfl⟩)
        (fun _ _ => .inr ((sampleColl_terms _).mpr (by decide))) hl spaceOrX_ok .fresh (fun _ => hv) h1 h2 (fun i => (hr' i).1) (fun i => (hr' i).2)
      refine ⟨fun e he => ?_, hm.sorted, hm.le, fun o e he hn => ?_⟩
      · obtain ⟨i, h⟩ := hm.sound e he
        exact ⟨some i, h⟩
      · cases o with
        | none => simp at he
        | some i => exact hm.complete i e he hn
  | false =>
      exact C103_prefix_partial sampleColl_valid hi std (fun _ => std) [98] 3 ha spaceOrX hch (fun c hc => ⟨true, (sample_next hc).symm⟩) hl spaceOrX_ok
        (firstApart_of (d := 4) (c := [[97, 98], [98]]) rfl (by decide) (by decide)) .fresh (fun _ => hv) h1 h2 (fun i => (hr' i).1) (fun i => (hr' i).2)

/-- the same with prefix search of type 4 -/
example (std : StdLib) (mem : Nat → W) : ∃ x, Index4.build std 100 (Pre.run sampleColl) mem = .ok x ∧
    ∃ t res, x.ask std ⟨false, [98], 3⟩ Scratch.fresh = .ok t ∧ t.pool.results = .ok res ∧ ∃ (t' : Bool → Scratch) (res' : Bool → List (Nat × Str)),
      (∀ i, x.ask std ⟨false, [98] ++ [spaceOrX i], 3⟩ t = .ok (t' i)) ∧ (∀ i, (t' i).pool.results = .ok (res' i)) ∧ MergeOf 3 (withTyped sampleColl [98] res') res := by
  obtain ⟨x, _, hb, _⟩ := Index4.exists sampleColl_valid.ready sampleColl_suits.to3 std 100 mem
  have ha : Ask.Ok ⟨false, [98], 3⟩ := ⟨show IsText [98] by decide, show 1 ≤ 3 by decide, show 3 ≤ MAX_K by decide⟩
  have hch : ∀ i, IsText [spaceOrX i] := by decide
  have hall : ∀ (a : Ask), a.Ok → a.k ≤ 8 → ∀ {s : Scratch}, Visited x.ask s → ∃ t res, x.ask std a s = .ok t ∧ t.pool.results = .ok res := by
    intro a ha hk s hs
    obtain ⟨t, h1⟩ := C36_type4_partial sampleColl_valid sampleColl_suits4 hb std _ ha hk hs
    obtain ⟨res, h2, _⟩ := C36_needed4 sampleColl_valid sampleColl_suits4 hb std _ ha hs h1
    exact ⟨t, res, h1, h2⟩
  obtain ⟨t, res, h1, h2⟩ := hall _ ha (show 3 ≤ 8 by decide) .fresh
  have hv : Visited x.ask t := .step .fresh ha h1
  obtain ⟨t', ht'⟩ := Classical.axiomOfChoice (fun i => hall _ (ask_append ha (hch i)) (show 3 ≤ 8 by decide) hv)
  obtain ⟨res', hr'⟩ := Classical.axiomOfChoice ht'
  exact ⟨x, hb, t, res, h1, h2, t', res', fun i => (hr' i).1, fun i => (hr' i).2,
    C103_type4_partial sampleColl_valid sampleColl_suits4 hb std (fun _ => std) [98] 3 ha spaceOrX hch (fun c hc => ⟨true, (sample_next hc).symm⟩)
      (lastOk_of sampleColl_valid (by decide +kernel)) spaceOrX_ok (firstApart_of (d := 4) (c := [[97, 98], [98]]) rfl (by decide) (by decide)) .fresh (fun _ => hv) h1 h2
      (fun i => (hr' i).1) (fun i => (hr' i).2)⟩

/-- "ab", the best, and "b" -/
def collAb : Coll := [(0, [[97, 98]]), (1, [[98]])]

theorem collAb_valid : ValidColl collAb :=
  ⟨by decide, by decide, by decide, by decide, by decide, by decide, by decide, by decide, by decide, by decide⟩

theorem collAb_suits : Suits2 collAb :=
  { terms := ⟨_, collAb_valid.ready.numTerms, by decide +kernel⟩
    count := by decide
    doc0 := ⟨[98], ⟨(1, [[98]]), by decide, by decide⟩, by
      intro c hc
      simp only [collAb, List.mem_cons, Prod.mk.injEq, List.not_mem_nil, or_false] at hc
      rcases hc with ⟨_, rfl⟩ | ⟨h, _⟩
      · decide
      · cases h⟩ }

/-- the query "a" and its continuation "ab": `C103_false` applies -/
example (std : StdLib) (mem : Nat → W) : ∃ x, Index2.build (Pre.run collAb) mem = .ok x ∧ ∃ t res, x.ask std ⟨false, [97], 3⟩ Scratch.fresh = .ok t ∧ t.pool.results = .ok res ∧
    ∃ (t' : Unit → Scratch) (res' : Unit → List (Nat × Str)), (∀ i, x.ask std ⟨false, [97] ++ [98], 3⟩ t = .ok (t' i)) ∧ (∀ i, (t' i).pool.results = .ok (res' i)) ∧
      ¬ MergeOf 3 (withTyped collAb [97] res') res := by
  obtain ⟨x, hb, _⟩ := Index2.exists collAb_valid.ready collAb_suits mem
  have hi : IsIndex collAb x.ask := .type2 collAb_suits hb
  have ha : Ask.Ok ⟨false, [97], 3⟩ := ⟨show IsText [97] by decide, show 1 ≤ 3 by decide, show 3 ≤ MAX_K by decide⟩
  obtain ⟨t, res, h1, h2⟩ := runs collAb_valid hi std _ ha (show 3 ≤ 8 by decide) .fresh
  have hv : Visited x.ask t := .step .fresh ha h1
  obtain ⟨t', res', h3, h4⟩ := runs collAb_valid hi std _ (ask_append (w := [98]) ha (by decide)) (show 3 ≤ 8 by decide) hv
  refine ⟨x, hb, t, res, h1, h2, fun _ => t', fun _ => res', fun _ => h3, fun _ => h4, ?_⟩
  have hu : IsFirstTerm collAb ([97] ++ [98]) := by
    have : (Pre.run collAb).terms[0]'(by decide +kernel) = [97, 98] := by decide +kernel
    rw [show ([97] ++ [98] : Str) = [97, 98] from rfl, ← this]
    exact (collAb_valid.ready.isFirst _).mpr rfl
  exact C103_false (ι := Unit) collAb_valid hi std (fun _ => std) [97] 3 ha (fun _ => 98) (i := ()) (by decide) (d := 0) hu (by decide) (by decide) (by decide) (by decide) .fresh (fun _ => hv)
    h1 h2 (fun _ => h3) (fun _ => h4)

/-- the query "zz" of the sample and its continuation by a space: `C103_false_conj` applies -/
example (std : StdLib) {run : StdLib → Ask → Scratch → M Scratch} (hi : IsIndex sampleColl run) : ∃ t res, run std ⟨true, [122, 122], 3⟩ Scratch.fresh = .ok t ∧ t.pool.results = .ok res ∧
    ∃ (t' : Unit → Scratch) (res' : Unit → List (Nat × Str)), (∀ i, run std ⟨true, [122, 122] ++ [space], 3⟩ t = .ok (t' i)) ∧ (∀ i, (t' i).pool.results = .ok (res' i)) ∧ ¬ MergeOf 3 res' res := by
  have ha : Ask.Ok ⟨true, [122, 122], 3⟩ := ⟨show IsText [122, 122] by decide, show 1 ≤ 3 by decide, show 3 ≤ MAX_K by decide⟩
  obtain ⟨t, res, h1, h2⟩ := runs sampleColl_valid hi std _ ha (show 3 ≤ 8 by decide) .fresh
  have hv : Visited run t := .step .fresh ha h1
  obtain ⟨t', res', h3, h4⟩ := runs sampleColl_valid hi std _ (ask_append (w := [space]) ha (by decide)) (show 3 ≤ 8 by decide) hv
  refine ⟨t, res, h1, h2, fun _ => t', fun _ => res', fun _ => h3, fun _ => h4, ?_⟩
  exact C103_false_conj (ι := Unit) sampleColl_valid hi std (fun _ => std) [122, 122] 3 ha (by decide) (by
    intro t ht
    rw [sampleColl_terms] at ht
    revert t
    decide) (fun _ => space) (i := ()) rfl .fresh (fun _ => hv) h1 h2 (fun _ => h3) (fun _ => h4)

/-- `C103_conj4_partial`: the query "c", its continuations "c " and "cx" -/
example (std : StdLib) (mem : Nat → W) : ∃ x, Index4.build std 100 (Pre.run sampleColl) mem = .ok x ∧
    ∃ t res, x.ask std ⟨true, [99], 3⟩ Scratch.fresh = .ok t ∧ t.pool.results = .ok res ∧ ∃ (t' : Bool → Scratch) (res' : Bool → List (Nat × Str)),
      (∀ i, x.ask std ⟨true, [99] ++ [spaceOrX i], 3⟩ t = .ok (t' i)) ∧ (∀ i, (t' i).pool.results = .ok (res' i)) ∧ MergeOf 3 res' res := by
  obtain ⟨x, _, hb, _⟩ := Index4.exists sampleColl_valid.ready sampleColl_suits.to3 std 100 mem
  have ha : Ask.Ok ⟨true, [99], 3⟩ := ⟨show IsText [99] by decide, show 1 ≤ 3 by decide, show 3 ≤ MAX_K by decide⟩
  have hch : ∀ i, IsText [spaceOrX i] := by decide
  have hall : ∀ (a : Ask), a.Ok → a.k ≤ 8 → ∀ {s : Scratch}, Visited x.ask s → ∃ t res, x.ask std a s = .ok t ∧ t.pool.results = .ok res := by
    intro a ha hk s hs
    obtain ⟨t, h1⟩ := C36_type4_partial sampleColl_valid sampleColl_suits4 hb std _ ha hk hs
    obtain ⟨res, h2, _⟩ := C36_needed4 sampleColl_valid sampleColl_suits4 hb std _ ha hs h1
    exact ⟨t, res, h1, h2⟩
  obtain ⟨t, res, h1, h2⟩ := hall _ ha (show 3 ≤ 8 by decide) .fresh
  have hv : Visited x.ask t := .step .fresh ha h1
  obtain ⟨t', ht'⟩ := Classical.axiomOfChoice (fun i => hall _ (ask_append ha (hch i)) (show 3 ≤ 8 by decide) hv)
  obtain ⟨res', hr'⟩ := Classical.axiomOfChoice ht'
  have hnext : ∀ c, NextInTerm sampleColl [99] c → ∃ i, spaceOrX i = c := by
    rintro c ⟨t, ht, hp⟩
    have hs : lastTerm [99] = [99] := by decide
    rw [hs] at hp
    rw [sampleColl_terms] at ht
    simp only [List.mem_cons, List.not_mem_nil, or_false] at ht
    rcases ht with rfl | rfl | rfl <;> simp [List.cons_prefix_cons] at hp
  have hblock : ∀ l : Str, ∃ b ∈ [[[97, 98], [98], [99]]], ∀ y, IsTerm sampleColl y → l <+: y → y ∈ b := fun l => ⟨_, List.mem_singleton.mpr rfl, fun y hy _ => (sampleColl_terms y).mp hy⟩
  have hq' : ∀ i, Complete4 sampleColl [[[97, 98], [98], [99]]] ([99] ++ [spaceOrX i]) := by
    intro i
    refine ⟨hblock _, ?_⟩
    cases i with
    | false => exact .inl (by rw [show completeTerms ([99] ++ [spaceOrX false]) = [] by decide]; simp)
    | true =>
        refine .inr ?_
        rw [show completeTerms ([99] ++ [spaceOrX true]) = [[99]] by decide]
        rintro r hr ⟨g1, _⟩ ⟨b, hb, _, _, g4⟩
        rw [List.mem_singleton] at hb
        subst hb
        have h0 := g4 (0, [[98]]) (by decide) ⟨[98], by decide, by decide⟩
        have hm : [99] ∈ r.2 := g1 _ (by simp) ((sampleColl_terms _).mpr (by simp))
        have : ∀ r ∈ sampleColl, [99] ∈ r.2 → 0 < r.1 := by decide
        have := this r hr hm
        simp only at h0
        omega
  exact ⟨x, hb, t, res, h1, h2, t', res', fun i => (hr' i).1, fun i => (hr' i).2,
    C103_conj4_partial sampleColl_valid sampleColl_suits4 hb sampleColl_blocks.2 std (fun _ => std) [99] 3 ha spaceOrX hch hnext (fun _ => ⟨true, rfl⟩)
      (fun _ _ => .inr ((sampleColl_terms _).mpr (by decide))) (lastOk_of sampleColl_valid (by decide +kernel))
      (fun i => by
        cases i with
        | true => exact fun _ _ _ => .inl (by decide)
        | false => exact lastOk_of sampleColl_valid (by decide +kernel))
      ⟨hblock _, .inl (by rw [show completeTerms [99] = [] by decide]; simp)⟩ hq' .fresh (fun _ => hv) h1 h2 (fun i => (hr' i).1) (fun i => (hr' i).2)⟩

/-- `C103_false_conj4`: the query "b" and its continuation "b " -/
example (std : StdLib) (mem : Nat → W) : ∃ x, Index4.build std 100 (Pre.run sampleColl) mem = .ok x ∧
    ∃ t res, x.ask std ⟨true, [98], 3⟩ Scratch.fresh = .ok t ∧ t.pool.results = .ok res ∧ ∃ (t' : Unit → Scratch) (res' : Unit → List (Nat × Str)),
      (∀ i, x.ask std ⟨true, [98] ++ [space], 3⟩ t = .ok (t' i)) ∧ (∀ i, (t' i).pool.results = .ok (res' i)) ∧ ¬ MergeOf 3 res' res := by
  obtain ⟨x, _, hb, _⟩ := Index4.exists sampleColl_valid.ready sampleColl_suits.to3 std 100 mem
  have ha : Ask.Ok ⟨true, [98], 3⟩ := ⟨show IsText [98] by decide, show 1 ≤ 3 by decide, show 3 ≤ MAX_K by decide⟩
  have hall : ∀ (a : Ask), a.Ok → a.k ≤ 8 → ∀ {s : Scratch}, Visited x.ask s → ∃ t res, x.ask std a s = .ok t ∧ t.pool.results = .ok res := by
    intro a ha hk s hs
    obtain ⟨t, h1⟩ := C36_type4_partial sampleColl_valid sampleColl_suits4 hb std _ ha hk hs
    obtain ⟨res, h2, _⟩ := C36_needed4 sampleColl_valid sampleColl_suits4 hb std _ ha hs h1
    exact ⟨t, res, h1, h2⟩
  obtain ⟨t, res, h1, h2⟩ := hall _ ha (show 3 ≤ 8 by decide) .fresh
  have hv : Visited x.ask t := .step .fresh ha h1
  obtain ⟨t', res', h3, h4⟩ := hall _ (ask_append (w := [space]) ha (by decide)) (show 3 ≤ 8 by decide) hv
  exact ⟨x, hb, t, res, h1, h2, fun _ => t', fun _ => res', fun _ => h3, fun _ => h4,
    C103_false_conj4 (ι := Unit) sampleColl_valid sampleColl_suits4 hb sampleColl_blocks.2 std (fun _ => std) [98] 3 ha (by decide) (by decide)
      (lastOk_of (last := [98]) sampleColl_valid (by decide +kernel)) ⟨_, List.mem_singleton.mpr rfl, fun y hy _ => (sampleColl_terms y).mp hy⟩ (fun _ => space) (fun _ => rfl)
      (d := 0) (c := [[98]]) (by decide) (by decide) (by decide) .fresh (fun _ => hv) h1 h2 (fun _ => h3) (fun _ => h4)⟩

end AC.Props
