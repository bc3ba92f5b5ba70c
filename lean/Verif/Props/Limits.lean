import Verif.Props.Answers
/-!
# C35 and C36: the number of results and the pool of texts
-/
namespace AC.Props
open AC Spec

variable {C : Coll} {run : StdLib → Ask → Scratch → M Scratch}

/-- **C35**. Missing from the claim: `k = 0` and `k > 15` (`C35_false1`, `C35_false2`). From 1 to 15 results, a search stays in its buffers,
unless the texts of its results do not fit in the pool: this is C36. -/
theorem C35_partial (hC : ValidColl C) (hi : IsIndex C run) (std : StdLib) (a : Ask) (ha : a.Ok) {s : Scratch} (hs : Visited run s) :
    (∃ t, run std a s = .ok t ∧ t.pool.scores.length = MAX_K) ∨
    (run std a s = .error .oob ∧ ∃ E : Coll, (∀ r ∈ E, r ∈ C) ∧ E.length ≤ a.k ∧ POOL_SIZE < room E + 2 * MAX_CHARS) := by
  obtain ⟨pre, _, h⟩ := hi.serves hC
  obtain ⟨E, b, o⟩ := h std a s ha (hs.wf h)
  rcases o with ⟨e1, _, e3⟩ | ⟨t, e1, e2, _⟩
  · exact Or.inr ⟨e1, E, fun r hr => (b.sound r hr).1, b.le, e3⟩
  · exact Or.inl ⟨t, e1, e2.scores⟩

/-- Prefix search with type 1 and any positive `k`, when at most 15 completions match: it works. -/
theorem C35_prefix1 (hC : ValidColl C) (hw : Suits1 C) {mem : Nat → W} {x : Index1} (hx : Index1.build (Pre.run C) mem = .ok x) (std : StdLib)
    {q : Str} (hq : IsText q) {k : Nat} (hk : 1 ≤ k) (hm : AtMost C (PrefixFound C (completeTerms q) (lastTerm q)) MAX_K)
    {s : Scratch} (hs : Visited x.ask s) :
    Outcome C (Pre.run C).terms (PrefixFound C (completeTerms q) (lastTerm q)) k (x.prefixTopk std q k s) :=
  Index1.prefix_spec' std hC.ready (Index1.rep_of_build hC hw hx) hq hk (Or.inr hm)
    (hs.wf (Index1.serves hC (Index1.rep_of_build hC hw hx)))

/-- The same with types 2, 3 and 4. -/
theorem C35_prefix2 (hC : ValidColl C) (hw : Suits3 C) {mem : Nat → W} {x : Base} (hx : Base.build (Pre.run C) mem = .ok x) (std : StdLib)
    {q : Str} (hq : IsText q) {k : Nat} (hk : 1 ≤ k) (hm : AtMost C (PrefixFound2 C (completeTerms q) (lastTerm q)) MAX_K)
    {s : Scratch} (hs : s.WF) :
    Outcome C (Pre.run C).terms (PrefixFound2 C (completeTerms q) (lastTerm q)) k (x.prefixTopk std q k s) := by
  obtain ⟨y, h1, h2, h3, h4⟩ := Base.exists hC hw mem
  rw [hx] at h1
  cases h1
  exact Base.prefix_spec' std hC.ready h2 h3 h4 hq hk (Or.inr hm) hs

/-- C35 is false: when more than 15 completions match, prefix search with type 1 and `k = 0` or any `k > 15` writes out of the buffer of scores. -/
theorem C35_false1 (hC : ValidColl C) (hw : Suits1 C) {mem : Nat → W} {x : Index1} (hx : Index1.build (Pre.run C) mem = .ok x) (std : StdLib)
    {q : Str} (hq : IsText q) {k : Nat} (hk : k = 0 ∨ MAX_K < k) (hm : ¬ AtMost C (PrefixFound C (completeTerms q) (lastTerm q)) MAX_K)
    {s : Scratch} (hs : Visited x.ask s) : x.prefixTopk std q k s = .error .oob :=
  have hr := Index1.rep_of_build hC hw hx
  (Index1.prefix_run std hC.ready hr hq k (hs.wf (Index1.serves hC hr))).overflow hC.ready hr.docs hk hm

/-- The same with types 2, 3 and 4. -/
theorem C35_false2 (hC : ValidColl C) (hw : Suits3 C) {mem : Nat → W} {x : Base} (hx : Base.build (Pre.run C) mem = .ok x) (std : StdLib)
    {q : Str} (hq : IsText q) {k : Nat} (hk : k = 0 ∨ MAX_K < k) (hm : ¬ AtMost C (PrefixFound2 C (completeTerms q) (lastTerm q)) MAX_K)
    {s : Scratch} (hs : s.WF) : x.prefixTopk std q k s = .error .oob := by
  obtain ⟨y, h1, h2, h3, h4⟩ := Base.exists hC hw mem
  rw [hx] at h1
  cases h1
  exact (Base.prefix_run std hC.ready h2 h3 hq k hs).overflow hC.ready h2.docs hk hm

/-- the 20 completions "a", "b", … "t", with document ids from 1 to 20 -/
def letters : Coll := (List.range 20).map (fun i => (i + 1, [[97 + i]]))

theorem letters_valid : ValidColl letters :=
  ⟨by decide, by decide, by decide, by decide, by decide, by decide, by decide, by decide, by decide, by decide⟩

theorem letters_suits : Suits2 letters :=
  { terms := ⟨_, letters_valid.ready.numTerms, by decide +kernel⟩
    doc0 := ⟨[97], ⟨(1, [[97]]), by decide, by decide⟩, fun c hc => by
      simp [letters] at hc⟩
    count := by decide }

theorem letters_many : ¬ AtMost letters (PrefixFound letters (completeTerms []) (lastTerm [])) MAX_K := by
  intro h
  have := h letters (by decide) (by
    intro r hr
    refine ⟨hr, ?_⟩
    obtain ⟨i, _, rfl⟩ := List.mem_map.mp hr
    exact ⟨[97 + i], ⟨List.nil_prefix, fun _ => Or.inl rfl⟩, List.prefix_refl _⟩)
  revert this
  decide

/-- with these, the empty query and `k = 16` (or 0), prefix search with type 1 leaves its buffer -/
example (mem : Nat → W) : ∃ x, Index1.build (Pre.run letters) mem = .ok x ∧ x.prefixTopk StdLib.bySorting [] 16 Scratch.fresh = .error .oob ∧
    x.prefixTopk StdLib.bySorting [] 0 Scratch.fresh = .error .oob := by
  obtain ⟨x, h1, h2⟩ := Index1.exists letters_valid.ready letters_suits.toSuits1 mem
  exact ⟨x, h1, C35_false1 letters_valid letters_suits.toSuits1 h1 _ (by decide) (Or.inr (by decide)) letters_many .fresh,
    C35_false1 letters_valid letters_suits.toSuits1 h1 _ (by decide) (Or.inl rfl) letters_many .fresh⟩

/-! ## C36 -/

/-- **C36**. Missing from the claim: more than 8 results (`C36_false`). With at most 8, the texts always fit. -/
theorem C36_partial (hC : ValidColl C) (hi : IsIndex C run) (std : StdLib) (a : Ask) (ha : a.Ok) (hk : a.k ≤ 8) {s : Scratch} (hs : Visited run s) :
    ∃ t, run std a s = .ok t := by
  obtain ⟨pre, _, h⟩ := hi.serves hC
  obtain ⟨t, _, h1, _⟩ := (h std a s ha (hs.wf h)).answer (by
    intro E b
    have h1 := b.room_le hC.text_le
    have h2 : a.k * 190 ≤ 8 * 190 := Nat.mul_le_mul_right _ hk
    have h6 : POOL_SIZE = 1920 := by decide
    have h7 : 2 * MAX_CHARS = 256 := by decide
    omega)
  exact ⟨t, h1⟩

/-- More generally the texts fit when they are short enough: there must be room for the texts of `k` completions and 256 more bytes. -/
theorem C36_room (hC : ValidColl C) (hi : IsIndex C run) (std : StdLib) (a : Ask) (ha : a.Ok)
    (hroom : ∀ r ∈ C, a.k * (joined r.2).length + 2 * MAX_CHARS ≤ POOL_SIZE) {s : Scratch} (hs : Visited run s) : ∃ t, run std a s = .ok t := by
  obtain ⟨pre, _, h⟩ := hi.serves hC
  obtain ⟨t, _, h1, _⟩ := (h std a s ha (hs.wf h)).answer (room_of ha.2.1 hroom)
  exact ⟨t, h1⟩

/-- Whenever the search succeeds, the texts of all the results together are not longer than the pool: so it fails for all longer ones. -/
theorem C36_needed (hC : ValidColl C) (hi : IsIndex C run) (std : StdLib) (a : Ask) (ha : a.Ok) {s t : Scratch} (hs : Visited run s)
    (ht : run std a s = .ok t) : ∃ res, t.pool.results = .ok res ∧ (res.map (·.2.length)).sum ≤ POOL_SIZE := by
  obtain ⟨pre, _, h⟩ := hi.serves hC
  obtain ⟨E, b, o⟩ := h std a s ha (hs.wf h)
  rw [ht] at o
  rcases o with ⟨e1, _⟩ | ⟨t', e1, _, e2, _, e3, _⟩
  · simp at e1
  · cases e1
    refine ⟨_, e2, ?_⟩
    rw [List.map_map]
    exact e3

/-- 15 completions of 40 terms of 3 letters: "aba … aba baa", "aba … aba bba" and so on, with document ids from 1 to 15 -/
def longColl : Coll := (List.range 15).map (fun i => (i + 1, List.replicate 39 [97, 98, 97] ++ [[98, 97 + i, 97]]))

theorem longColl_valid : ValidColl longColl :=
  ⟨by decide +kernel, by decide +kernel, by decide +kernel, by decide +kernel, by decide +kernel, by decide +kernel, by decide +kernel, by decide +kernel,
    by decide +kernel, by decide +kernel⟩

theorem longColl_suits : Suits2 longColl :=
  { terms := ⟨_, longColl_valid.ready.numTerms, by decide +kernel⟩
    doc0 := ⟨[97, 98, 97], ⟨(1, List.replicate 39 [97, 98, 97] ++ [[98, 97, 97]]), by decide +kernel, by decide +kernel⟩, fun c hc => by
      simp [longColl] at hc⟩
    count := by decide +kernel }

theorem longColl_room : ∀ {E : Coll}, (∀ r ∈ E, r ∈ longColl) → room E = E.length * 159
  | [], _ => rfl
  | r :: E, hE => by
      have hlen : ∀ r ∈ longColl, (joined r.2).length = 159 := by decide +kernel
      have h1 := longColl_room (E := E) (fun r hr => hE r (by simp [hr]))
      have h2 := hlen r (hE r (by simp))
      unfold room at h1 ⊢
      rw [List.map_cons, List.sum_cons, h1, h2, List.length_cons]; omega

/-- 14 of the completions do not fit -/
theorem longColl_shows {terms : List Str} {E : Coll} {o : M Scratch} (hE : ∀ r ∈ E, r ∈ longColl) (hn : 14 ≤ E.length) (h : Shows terms E o) :
    o = .error .oob := by
  have hr := longColl_room hE
  rcases h with ⟨e1, _⟩ | ⟨t, _, _, _, _, e3, _⟩
  · exact e1
  · have h6 : POOL_SIZE = 1920 := by decide
    omega

theorem longColl_best {P : List Str → Prop} {E : Coll} (b : Spec.Best longColl P 15 E) (hP : ∀ r ∈ longColl.tail, P r.2) : 14 ≤ E.length := by
  apply Classical.byContradiction
  intro hc
  have hall : ∀ r ∈ longColl.tail, r ∈ E := by
    intro r hr
    apply Classical.byContradiction
    intro hn
    have := (b.complete r (List.mem_of_mem_tail hr) (hP r hr) hn).1
    omega
  have := nodup_subset_length' (A := longColl.tail) (B := E) (by decide +kernel) hall
  have h14 : longColl.tail.length = 14 := by decide +kernel
  omega

theorem longColl_head : ∀ r ∈ longColl, [[97, 98, 97]] <+: r.2 := by decide +kernel

theorem longColl_reaches : Reaches longColl [] [97, 98, 97] := ⟨List.nil_prefix, fun _ => Or.inl rfl⟩

theorem longColl_prefix {r : Nat × List Str} (hr : r ∈ longColl) : PrefixFound longColl (completeTerms []) (lastTerm []) r.2 :=
  ⟨_, longColl_reaches, longColl_head r hr⟩

theorem longColl_prefix2 {r : Nat × List Str} (hr : r ∈ longColl.tail) : PrefixFound2 longColl (completeTerms []) (lastTerm []) r.2 := by
  refine ⟨longColl_prefix (List.mem_of_mem_tail hr), ?_⟩
  rintro ⟨d, hd⟩
  exfalso
  have h1 : ∀ r ∈ longColl.tail, ∀ p ∈ longColl.head?, p.2 ≠ r.2 := by decide +kernel
  exact h1 r hr _ hd rfl

/-- C36 is false: from this collection all the types can be built, and with types 1, 2 and 3 both searches write out of the pool for the empty query
and `k = 15` (for type 4 see `C36_false4`). -/
theorem C36_false (hi : IsIndex longColl run) (std : StdLib) (cj : Bool) {s : Scratch} (hs : Visited run s) :
    run std ⟨cj, [], 15⟩ s = .error .oob := by
  obtain ⟨pre, hp, h⟩ := hi.serves longColl_valid
  have ha : Ask.Ok ⟨cj, [], 15⟩ := ⟨show IsText [] by decide, show 1 ≤ 15 by decide, show 15 ≤ MAX_K by decide⟩
  obtain ⟨E, b, o⟩ := h std ⟨cj, [], 15⟩ s ha (hs.wf h)
  refine longColl_shows (fun r hr => (b.sound r hr).1) (longColl_best b ?_) o
  intro r hr
  unfold foundBy
  cases cj with
  | true =>
      exact ⟨fun t ht => by simp [completeTerms, pieces] at ht, _, (longColl_head r (List.mem_of_mem_tail hr)).subset (by simp), longColl_reaches⟩
  | false =>
      rcases hp with rfl | rfl
      · exact longColl_prefix (List.mem_of_mem_tail hr)
      · exact longColl_prefix2 hr

/-- the collection passes the checks of the constructors -/
example : (Pre.run longColl).maxLen ≤ MAX_CHARS ∧ (Pre.run longColl).levels ≤ MAX_TERMS := by decide +kernel

example (mem : Nat → W) : (∃ x : Index1, IsIndex longColl x.ask) ∧ (∃ x : Index2, IsIndex longColl x.ask) ∧ ∃ x : Index3, IsIndex longColl x.ask := by
  obtain ⟨x, h1, _⟩ := Index1.exists longColl_valid.ready longColl_suits.toSuits1 mem
  obtain ⟨y, h2, _⟩ := Index2.exists longColl_valid.ready longColl_suits mem
  obtain ⟨z, h3, _⟩ := Index3.exists longColl_valid.ready longColl_suits.to3 mem
  exact ⟨⟨x, .type1 longColl_suits.toSuits1 h1⟩, ⟨y, .type2 longColl_suits h2⟩, z, .type3 longColl_suits.to3 h3⟩

end AC.Props
