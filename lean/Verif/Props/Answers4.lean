import Verif.Props.Type4
import Verif.Props.Limits
/-!
# C30 to C36 for type 4

`Index4.ask` are the two searches of an index of type 4. The standard library takes part in what conjunctive search returns (see `Result4`), so that
answers are compared for the same one.
-/
namespace AC.Props
open AC Spec

section
variable {C : Coll} (hC : ValidColl C) (hw : Suits4 C) {std₀ : StdLib} {m : Nat} {mem : Nat → W} {x : Index4}
  (hb : Index4.build std₀ m (Pre.run C) mem = .ok x)
include hC hw hb

/-- the list of the results of a search, from which the first `k` are taken -/
theorem type4_list (std : StdLib) (cj : Bool) {q : Str} (hq : IsText q) :
    ∃ S : Coll, (∀ r ∈ S, r ∈ C) ∧ ∀ k, 1 ≤ k → k ≤ MAX_K → ∀ s : Scratch, s.WF → Shows (Pre.run C).terms (S.take k) (x.ask std ⟨cj, q, k⟩ s) := by
  obtain ⟨docss, hx⟩ := Index4.rep_of_build hC hw.toSuits3 hb
  cases cj with
  | true =>
      obtain ⟨S, h1, hS⟩ := Index4.conj_spec hC.ready std hx hw.ids hq
      exact ⟨S, h1.mem, hS q hq rfl (fun _ => Iff.rfl)⟩
  | false =>
      obtain ⟨E, b, _⟩ := Base.prefix_spec std hC.ready hx.base hx.dict hx.built hq (by decide) (Nat.le_refl MAX_K) Scratch.fresh_wf
      refine ⟨E, fun r hr => (b.sound r hr).1, ?_⟩
      intro k hk hk' s hs
      obtain ⟨E', b', h'⟩ := Base.prefix_spec std hC.ready hx.base hx.dict hx.built hq hk hk' hs
      rw [← b'.unique hC.docs (fun _ _ => Iff.rfl) (b.take hk')]
      exact h'

theorem type4_wf {s : Scratch} (hs : Visited x.ask s) : s.WF := by
  induction hs with
  | fresh => exact Scratch.fresh_wf
  | step _ ha ho ih =>
      obtain ⟨E, hE⟩ := type4_shows hC hw hb _ _ ha
      exact (hE _ ih).wf ho

/-- **C30** for type 4. -/
theorem C30_type4 (std : StdLib) (a : Ask) (ha : a.Ok) {s t : Scratch} (hs : Visited x.ask s) (ht : x.ask std a s = .ok t) :
    TextsInPlace C t.pool := by
  obtain ⟨S, hS, h⟩ := type4_list hC hw hb std a.conj ha.1
  have h := h a.k ha.2.1 ha.2.2 s (type4_wf hC hw hb hs)
  rw [ht] at h
  rcases h with ⟨e, _⟩ | ⟨t', e, _, e1, _, _, e2⟩
  · cases e
  · cases e
    exact textsInPlace (fun r hr => hS r (List.mem_of_mem_take hr)) e1 e2

/-- **C32** is false for type 4: when the completion with the smallest document id is found by prefix search for a query with a complete term, and
its document is the first of a block that has all the complete terms, then prefix search returns it and conjunctive search does not. -/
theorem C32_false4 {B : List (List Str)} (hB : IsBlocks C m B) (std std' : StdLib) (q : Str) (k : Nat) (ha : Ask.Ok ⟨false, q, k⟩)
    {s s' t t' : Scratch} {res res' : List (Nat × Str)} (hs : Visited x.ask s) (hs' : Visited x.ask s')
    (h1 : x.ask std ⟨false, q, k⟩ s = .ok t) (h2 : t.pool.results = .ok res) (h3 : x.ask std' ⟨true, q, k⟩ s' = .ok t')
    (h4 : t'.pool.results = .ok res') {r : Nat × List Str} (hr : r ∈ C) (hmin : ∀ r' ∈ C, r.1 ≤ r'.1)
    (hp : PrefixFound2 C (completeTerms q) (lastTerm q) r.2) (hkn : ∃ t ∈ completeTerms q, IsTerm C t) (hsk : Skipped C B (completeTerms q) r) :
    shown r ∈ res ∧ shown r ∉ res' := by
  obtain ⟨docss, hx⟩ := Index4.rep_of_build hC hw.toSuits3 hb
  constructor
  · obtain ⟨E, b, e1, _⟩ := (Base.prefix_spec std hC.ready hx.base hx.dict hx.built ha.1 ha.2.1 ha.2.2 (type4_wf hC hw hb hs)).cases h1
    rw [h2] at e1
    cases e1
    apply Classical.byContradiction
    intro hn
    obtain ⟨f1, f2⟩ := b.complete r hr hp (fun hm => hn (List.mem_map.mpr ⟨_, hm, rfl⟩))
    cases E with
    | nil => have h := ha.2.1; simp at f1 h; omega
    | cons r' E =>
        have g1 := f2 r' (by simp)
        have g2 := hmin r' (b.sound r' (by simp)).1
        omega
  · intro hm
    obtain ⟨S, r1, r2⟩ := Index4.conj_spec hC.ready std' hx hw.ids ha.1
    rw [C06_blocks_unique (hC.ready.blocks hx.inverted.cut) hB] at r1
    have hres := (r2 q ha.1 rfl (fun _ => Iff.rfl) k ha.2.1 ha.2.2 s' (type4_wf hC hw hb hs')).results h3 h4
    subst hres
    obtain ⟨e, he, hd⟩ := List.mem_map.mp hm
    have heS := List.mem_of_mem_take he
    have hd1 : e.1 = r.1 := congrArg (fun z : Nat × Str => z.1) hd
    have he2 : e.2 = r.2 := hC.ready.unique (d := r.1) (by rw [← hd1]; exact r1.mem e heS) hr
    have : e = r := Prod.ext hd1 he2
    subst this
    exact ((r1.inter hkn).2.1 e heS).2.1 hsk

/-- **C33** for type 4. -/
theorem C33_type4 (std : StdLib) (q q' : Str) (k : Nat) (ha : Ask.Ok ⟨true, q, k⟩) (ha' : IsText q')
    (hl : lastTerm q = lastTerm q') (ht : ∀ t, t ∈ completeTerms q ↔ t ∈ completeTerms q') {s s' : Scratch} (hs : Visited x.ask s)
    (hs' : Visited x.ask s') : SameAnswer (x.ask std ⟨true, q, k⟩ s) (x.ask std ⟨true, q', k⟩ s') := by
  obtain ⟨docss, hx⟩ := Index4.rep_of_build hC hw.toSuits3 hb
  obtain ⟨S, _, r2⟩ := Index4.conj_spec hC.ready std hx hw.ids ha.1
  exact (r2 q ha.1 rfl (fun _ => Iff.rfl) k ha.2.1 ha.2.2 s (type4_wf hC hw hb hs)).same
    (r2 q' ha' hl.symm (fun t => (ht t).symm) k ha.2.1 ha.2.2 s' (type4_wf hC hw hb hs'))

/-- **C34** for type 4. -/
theorem C34_type4 (std : StdLib) (cj : Bool) (q : Str) (k k' : Nat) (hk : 1 ≤ k) (hkk : k ≤ k') (ha : Ask.Ok ⟨cj, q, k'⟩)
    {s s' t' : Scratch} {res' : List (Nat × Str)} (hs : Visited x.ask s) (hs' : Visited x.ask s')
    (h1 : x.ask std ⟨cj, q, k'⟩ s' = .ok t') (h2 : t'.pool.results = .ok res') :
    ∃ t, x.ask std ⟨cj, q, k⟩ s = .ok t ∧ t.pool.results = .ok (res'.take k) := by
  obtain ⟨S, hS, h⟩ := type4_list hC hw hb std cj ha.1
  have o' := h k' ha.2.1 ha.2.2 s' (type4_wf hC hw hb hs')
  have o := h k hk (Nat.le_trans hkk ha.2.2) s (type4_wf hC hw hb hs)
  rw [h1] at o'
  rcases o' with ⟨e, _⟩ | ⟨t2, e, _, e1, e2, _⟩
  · cases e
  · cases e
    rw [h2] at e1
    cases e1
    have htk : S.take k = (S.take k').take k := by rw [List.take_take, Nat.min_eq_left hkk]
    rcases o with ⟨_, f, _⟩ | ⟨t, f1, _, f2, _⟩
    · rw [htk] at f
      exact absurd (e2.take k) f
    · exact ⟨t, f1, by rw [f2, htk, List.map_take]⟩

/-- **C35** for type 4. Missing from the claim: `k = 0` and `k > 15` (`C35_false2` for prefix search). -/
theorem C35_type4_partial (std : StdLib) (a : Ask) (ha : a.Ok) {s : Scratch} (hs : Visited x.ask s) :
    (∃ t, x.ask std a s = .ok t ∧ t.pool.scores.length = MAX_K) ∨
    (x.ask std a s = .error .oob ∧ ∃ E : Coll, (∀ r ∈ E, r ∈ C) ∧ E.length ≤ a.k ∧ POOL_SIZE < room E + 2 * MAX_CHARS) := by
  obtain ⟨S, hS, h⟩ := type4_list hC hw hb std a.conj ha.1
  rcases h a.k ha.2.1 ha.2.2 s (type4_wf hC hw hb hs) with ⟨e1, _, e3⟩ | ⟨t, e1, e2, _⟩
  · exact Or.inr ⟨e1, _, fun r hr => hS r (List.mem_of_mem_take hr), List.length_take_le .., e3⟩
  · exact Or.inl ⟨t, e1, e2.scores⟩

/-- **C36** for type 4: the texts fit when they are short enough. -/
theorem C36_room4 (std : StdLib) (a : Ask) (ha : a.Ok) {n : Nat} (hn : ∀ r ∈ C, (joined r.2).length ≤ n)
    (hroom : a.k * n + 2 * MAX_CHARS ≤ POOL_SIZE) {s : Scratch} (hs : Visited x.ask s) : ∃ t, x.ask std a s = .ok t := by
  rcases C35_type4_partial hC hw hb std a ha hs with ⟨t, h, _⟩ | ⟨_, E, h1, h2, h3⟩
  · exact ⟨t, h⟩
  · have h4 := room_le hn h1
    have h5 := Nat.mul_le_mul_right n h2
    omega

/-- **C36** for type 4. Missing from the claim: more than 8 results. With at most 8, the texts always fit. -/
theorem C36_type4_partial (std : StdLib) (a : Ask) (ha : a.Ok) (hk : a.k ≤ 8) {s : Scratch} (hs : Visited x.ask s) : ∃ t, x.ask std a s = .ok t := by
  refine C36_room4 hC hw hb std a ha hC.text_le ?_ hs
  have h2 : a.k * 190 ≤ 8 * 190 := Nat.mul_le_mul_right _ hk
  have h6 : POOL_SIZE = 1920 := by decide
  have h7 : 2 * MAX_CHARS = 256 := by decide
  omega

/-- **C36** for type 4: whenever the search succeeds, the texts of all the results together are not longer than the pool. -/
theorem C36_needed4 (std : StdLib) (a : Ask) (ha : a.Ok) {s t : Scratch} (hs : Visited x.ask s)
    (ht : x.ask std a s = .ok t) : ∃ res, t.pool.results = .ok res ∧ (res.map (·.2.length)).sum ≤ POOL_SIZE := by
  obtain ⟨S, hS, h⟩ := type4_list hC hw hb std a.conj ha.1
  have o := h a.k ha.2.1 ha.2.2 s (type4_wf hC hw hb hs)
  rw [ht] at o
  rcases o with ⟨e1, _⟩ | ⟨t', e1, _, e2, _, e3, _⟩
  · simp at e1
  · cases e1
    refine ⟨_, e2, ?_⟩
    rw [List.map_map]
    exact e3

end

/-- **C36** is false for type 4: with this collection and every block size, both searches write out of the pool for the empty query and `k = 15`. -/
theorem C36_false4 {std₀ : StdLib} {m : Nat} {mem : Nat → W} {x : Index4} (hb : Index4.build std₀ m (Pre.run longColl) mem = .ok x) (std : StdLib)
    (cj : Bool) {s : Scratch} (hs : Visited x.ask s) : x.ask std ⟨cj, [], 15⟩ s = .error .oob := by
  have hw : Suits4 longColl := { longColl_suits.to3 with ids := by decide +kernel }
  have hwf := type4_wf longColl_valid hw hb hs
  obtain ⟨docss, hx⟩ := Index4.rep_of_build longColl_valid hw.toSuits3 hb
  cases cj with
  | false =>
      obtain ⟨E, b, o⟩ := Base.prefix_spec std longColl_valid.ready hx.base hx.dict hx.built (q := []) (k := 15) (by decide) (by decide) (by decide) hwf
      exact longColl_shows (fun r hr => (b.sound r hr).1) (longColl_best b (fun r hr => longColl_prefix2 hr)) o
  | true =>
      obtain ⟨S, r1, r2⟩ := Index4.conj_spec longColl_valid.ready std hx hw.ids (q := []) (by decide)
      have hB := longColl_valid.ready.blocks hx.inverted.cut
      refine longColl_shows (E := S.take 15) (fun r hr => r1.mem r (List.mem_of_mem_take hr)) ?_
        (r2 [] (by decide) rfl (fun _ => Iff.rfl) 15 (by decide) (by decide) s hwf)
      have hT : ∀ r ∈ longColl, [97, 98, 97] ∈ r.2 := fun r hr => (longColl_head r hr).subset (by simp)
      have hall : ∀ r ∈ longColl, r ∈ S := by
        intro r hr
        obtain ⟨b, hbm, hxb⟩ := List.mem_flatten.mp ((hB.terms [97, 98, 97]).mpr ⟨r, hr, hT r hr⟩)
        have hlk : Looked longColl (lastTerm []) b := by
          refine ⟨_, hxb, ⟨r, hr, hT r hr⟩, longColl_reaches, Or.inr ⟨[98, 97, 97], ?_, ⟨List.nil_prefix, fun _ => Or.inl rfl⟩, by decide⟩⟩
          exact ⟨_, List.mem_map.mpr ⟨0, by decide, rfl⟩, by simp⟩
        have h2 := (r1.union (fun t ht => by simp [completeTerms, pieces] at ht)).2 r hr
        rw [← List.count_pos_iff, h2]
        unfold copies
        refine List.length_pos_iff.mpr (List.ne_nil_of_mem (List.mem_filter.mpr ⟨hbm, ?_⟩))
        simpa using ⟨hlk, _, hT r hr, hxb, longColl_reaches⟩
      have := nodup_subset_length' (A := longColl) (B := S) (by decide +kernel) hall
      have h15 : longColl.length = 15 := by decide +kernel
      rw [List.length_take]
      omega

example (mem : Nat → W) (std : StdLib) (m : Nat) : ∃ x, Index4.build std m (Pre.run longColl) mem = .ok x ∧
    x.ask std ⟨true, [], 15⟩ Scratch.fresh = .error .oob := by
  obtain ⟨x, docss, h1, _⟩ := Index4.exists longColl_valid.ready longColl_suits.to3 std m mem
  exact ⟨x, h1, C36_false4 h1 std true .fresh⟩

/-- the sample, a state after two searches, and a search from there, for the theorems above -/
example (mem : Nat → W) (std : StdLib) : ∃ x s s', Index4.build std 3 (Pre.run sampleColl) mem = .ok x ∧ Visited x.ask s ∧
    x.ask std ⟨true, [98, 32], 3⟩ Scratch.fresh = .ok s ∧ x.ask std ⟨false, [99], 5⟩ s = .ok s' := by
  obtain ⟨x, docss, h1, _⟩ := Index4.exists sampleColl_valid.ready sampleColl_suits.to3 std 3 mem
  have a1 : Ask.Ok ⟨true, [98, 32], 3⟩ := ⟨by decide, by decide, by decide⟩
  have a2 : Ask.Ok ⟨false, [99], 5⟩ := ⟨by decide, by decide, by decide⟩
  obtain ⟨s, e1⟩ := C36_type4_partial sampleColl_valid sampleColl_suits4 h1 std _ a1 (by decide) .fresh
  obtain ⟨s', e2⟩ := C36_type4_partial sampleColl_valid sampleColl_suits4 h1 std _ a2 (by decide) (.step .fresh a1 e1)
  exact ⟨x, s, s', h1, .step .fresh a1 e1, e1, e2⟩

/-- the completions "a b" and "b c" with the document ids 1 and 0 -/
def pairColl : Coll := [(1, [[97], [98]]), (0, [[98], [99]])]

theorem pairColl_terms (t : Str) : IsTerm pairColl t ↔ t ∈ [[97], [98], [99]] := by
  simp only [IsTerm, pairColl, List.mem_cons, List.not_mem_nil, or_false, exists_eq_or_imp, exists_eq_left]
  grind

theorem pairColl_valid : ValidColl pairColl :=
  ⟨by decide, by decide, by decide, by decide, by decide, by decide, by decide, by decide, by decide, by decide⟩

theorem pairColl_suits : Suits4 pairColl :=
  { terms := ⟨_, pairColl_valid.ready.numTerms, by decide +kernel⟩
    count := by decide
    doc0 := ⟨(1, [[97], [98]]), by decide, by decide⟩
    ids := by decide }

/-- In one block, the query `"b c"` has the result "b c" with prefix search and no result with conjunctive search: the theorem `C32_false4` applies, and
both searches succeed. -/
example (mem : Nat → W) (std : StdLib) : ∃ x t t' res res', Index4.build std 100 (Pre.run pairColl) mem = .ok x ∧
    x.ask std ⟨false, [98, 32, 99], 3⟩ Scratch.fresh = .ok t ∧ t.pool.results = .ok res ∧
    x.ask std ⟨true, [98, 32, 99], 3⟩ Scratch.fresh = .ok t' ∧ t'.pool.results = .ok res' ∧ (0, [98, 32, 99]) ∈ res ∧ (0, [98, 32, 99]) ∉ res' := by
  obtain ⟨x, docss, h1, _⟩ := Index4.exists pairColl_valid.ready pairColl_suits.toSuits3 std 100 mem
  have a1 : Ask.Ok ⟨false, [98, 32, 99], 3⟩ := ⟨by decide, by decide, by decide⟩
  have a2 : Ask.Ok ⟨true, [98, 32, 99], 3⟩ := ⟨by decide, by decide, by decide⟩
  obtain ⟨t, e1⟩ := C36_type4_partial pairColl_valid pairColl_suits h1 std _ a1 (by decide) .fresh
  obtain ⟨t', e2⟩ := C36_type4_partial pairColl_valid pairColl_suits h1 std _ a2 (by decide) .fresh
  obtain ⟨res, f1, _⟩ := C36_needed4 pairColl_valid pairColl_suits h1 std _ a1 .fresh e1
  obtain ⟨res', f2, _⟩ := C36_needed4 pairColl_valid pairColl_suits h1 std _ a2 .fresh e2
  have hB : IsBlocks pairColl 100 [[[97], [98], [99]]] :=
    ⟨by decide, fun t => by rw [pairColl_terms]; rfl, by decide, by decide, by decide⟩
  have hq : completeTerms [98, 32, 99] = [[98]] ∧ lastTerm [98, 32, 99] = [99] := by decide
  have h := C32_false4 pairColl_valid pairColl_suits h1 hB std std [98, 32, 99] 3 a1 .fresh .fresh e1 f1 e2 f2 (r := (0, [[98], [99]])) (by decide)
    (by decide) ?_ ?_ ?_
  · exact ⟨x, t, t', res, res', h1, e1, f1, e2, f2, h⟩
  · rw [hq.1, hq.2]
    refine ⟨⟨[99], ⟨List.prefix_refl _, fun _ => Or.inr rfl⟩, List.prefix_refl _⟩, ?_⟩
    rintro ⟨d, hd⟩
    revert hd
    simp [pairColl]
  · rw [hq.1]
    exact ⟨[98], by decide, (pairColl_terms _).mpr (by decide)⟩
  · rw [hq.1]
    refine ⟨_, List.mem_singleton.mpr rfl, ?_, ⟨[98], by decide, by decide⟩, fun _ _ _ => Nat.zero_le _⟩
    intro t ht _
    exact (by decide : ∀ t ∈ [[98]], t ∈ [[97], [98], [99]]) t ht

end AC.Props
