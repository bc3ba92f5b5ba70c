import Verif.Proofs.Zero4
import Verif.Props.Answers4
import Verif.Props.WebServer
/-!
# C35: searches with a number of results out of bounds

`k = 0` and `k` larger than the size of the buffer of scores, `MAX_K = 15`.
-/
namespace AC.Props
open AC Spec

section
variable {C : Coll} (hC : ValidColl C) {mem : Nat → W} (std : StdLib) {q : Str} (hq : IsText q) {k : Nat} (hk : k = 0 ∨ MAX_K < k) {j : Nat}
  (hj : MAX_K ≤ j)
include hC hq

/-- Prefix search with type 1 and `k = 0`, when at most 15 completions match: all the matches, as with any `j` from 15. -/
theorem C35_prefix1_zero (hw : Suits1 C) {x : Index1} (hx : Index1.build (Pre.run C) mem = .ok x) (hj : MAX_K ≤ j)
    (hm : AtMost C (PrefixFound C (completeTerms q) (lastTerm q)) MAX_K) {s : Scratch} (hs : Visited x.ask s) :
    Outcome C (Pre.run C).terms (PrefixFound C (completeTerms q) (lastTerm q)) j (x.prefixTopk std q 0 s) :=
  have hr := Index1.rep_of_build hC hw hx
  (Index1.prefix_run std hC.ready hr hq 0 (hs.wf (Index1.serves hC hr))).all hC.ready hr.docs hr.built hj hm
    (fun _ _ h1 h2 h3 h4 => Index1.extract_outcome hC.ready hr h1 h2 h3 h4)

/-- The same with types 2, 3 and 4. -/
theorem C35_prefix2_zero (hw : Suits3 C) {x : Base} (hx : Base.build (Pre.run C) mem = .ok x) (hj : MAX_K ≤ j)
    (hm : AtMost C (PrefixFound2 C (completeTerms q) (lastTerm q)) MAX_K) {s : Scratch} (hs : s.WF) :
    Outcome C (Pre.run C).terms (PrefixFound2 C (completeTerms q) (lastTerm q)) j (x.prefixTopk std q 0 s) := by
  obtain ⟨y, h1, h2, h3, h4⟩ := Base.exists hC hw mem
  rw [hx] at h1
  cases h1
  exact (Base.prefix_run std hC.ready h2 h3 hq 0 hs).all hC.ready h2.docs h4 hj hm
    (fun _ _ g1 g2 g3 g4 => Base.extract_outcome hC.ready h2 h3 h4 g1 g2 g3 g4)

include hk

/-- Conjunctive search with type 1 and `k = 0` or `k > 15`, when at most 15 completions match: all the matches. -/
theorem C35_conj1 (hw : Suits1 C) {x : Index1} (hx : Index1.build (Pre.run C) mem = .ok x) (hj : MAX_K ≤ j)
    (hm : AtMost C (ConjFound C (completeTerms q) (lastTerm q)) MAX_K) {s : Scratch} (hs : Visited x.ask s) :
    Outcome C (Pre.run C).terms (ConjFound C (completeTerms q) (lastTerm q)) j (x.conjTopk std q k s) :=
  have hr := Index1.rep_of_build hC hw hx
  Index1.conj_all hC.ready hq hk (hs.wf (Index1.serves hC hr)) std hr hm hj

/-- C35 is false: when more than 15 match, it writes out of the buffer of scores. -/
theorem C35_false_conj1 (hw : Suits1 C) {x : Index1} (hx : Index1.build (Pre.run C) mem = .ok x)
    (hm : ¬ AtMost C (ConjFound C (completeTerms q) (lastTerm q)) MAX_K) {s : Scratch} (hs : Visited x.ask s) :
    x.conjTopk std q k s = .error .oob :=
  have hr := Index1.rep_of_build hC hw hx
  Index1.conj_overflow hC.ready hq hk (hs.wf (Index1.serves hC hr)) std hr hm

/-- The same with type 3. -/
theorem C35_conj3 (hw : Suits3 C) {x : Index3} (hx : Index3.build (Pre.run C) mem = .ok x) (hj : MAX_K ≤ j)
    (hm : AtMost C (ConjFound C (completeTerms q) (lastTerm q)) MAX_K) {s : Scratch} (hs : Visited x.ask s) :
    Outcome C (Pre.run C).terms (ConjFound C (completeTerms q) (lastTerm q)) j (x.conjTopk std q k s) :=
  have hr := Index3.rep_of_build hC hw hx
  Index3.conj_all hC.ready hq hk (hs.wf (Index3.serves hC hr)) std hr hm hj

/-- The same with type 3. -/
theorem C35_false_conj3 (hw : Suits3 C) {x : Index3} (hx : Index3.build (Pre.run C) mem = .ok x)
    (hm : ¬ AtMost C (ConjFound C (completeTerms q) (lastTerm q)) MAX_K) {s : Scratch} (hs : Visited x.ask s) :
    x.conjTopk std q k s = .error .oob :=
  have hr := Index3.rep_of_build hC hw hx
  Index3.conj_overflow hC.ready hq hk (hs.wf (Index3.serves hC hr)) std hr hm

/-- With type 2, which writes a completion to its table before it checks it, a completion that only has the complete terms must not follow 15
matches. -/
theorem C35_conj2 (hw : Suits2 C) {x : Index2} (hx : Index2.build (Pre.run C) mem = .ok x) (hj : MAX_K ≤ j)
    (hm : AtMost C (ConjFound C (completeTerms q) (lastTerm q)) MAX_K)
    (hc : (∃ t ∈ completeTerms q, IsTerm C t) → ¬ Crowded C (completeTerms q) (lastTerm q)) {s : Scratch} (hs : Visited x.ask s) :
    Outcome C (Pre.run C).terms (ConjFound C (completeTerms q) (lastTerm q)) j (x.conjTopk std q k s) :=
  have hr := Index2.rep_of_build hC hw hx
  Index2.conj_all hC.ready hq hk (hs.wf (Index2.serves hC hr)) std hr hm hc hj

/-- C35 is false with type 2: when there are more than 15 matches, or there are 15 and a completion with all the known complete terms comes
after them. -/
theorem C35_false_conj2 (hw : Suits2 C) {x : Index2} (hx : Index2.build (Pre.run C) mem = .ok x)
    (hm : ¬ AtMost C (ConjFound C (completeTerms q) (lastTerm q)) MAX_K ∨
      (∃ t ∈ completeTerms q, IsTerm C t) ∧ Crowded C (completeTerms q) (lastTerm q)) {s : Scratch} (hs : Visited x.ask s) :
    x.conjTopk std q k s = .error .oob :=
  have hr := Index2.rep_of_build hC hw hx
  Index2.conj_overflow hC.ready hq hk (hs.wf (Index2.serves hC hr)) std hr hm

end

/-- Conjunctive search with type 4 and every positive `k`: there is a list of results from which the first `k` are shown if they are not more than
15; otherwise C35 is false, the search writes out of the buffer of scores. -/
theorem C35_conj4 {C : Coll} (hC : ValidColl C) (hw : Suits4 C) {std₀ : StdLib} {m : Nat} {mem : Nat → W} {x : Index4}
    (hx : Index4.build std₀ m (Pre.run C) mem = .ok x) {B : List (List Str)} (hB : IsBlocks C m B) (std : StdLib) {q : Str} (hq : IsText q) :
    ∃ S, Result4 C B (completeTerms q) (lastTerm q) S ∧ ∀ k, 1 ≤ k → ∀ s, Visited x.ask s →
      (min k S.length ≤ MAX_K → Shows (Pre.run C).terms (S.take k) (x.conjTopk std q k s)) ∧
      (MAX_K < min k S.length → x.conjTopk std q k s = .error .oob) := by
  obtain ⟨docss, hr⟩ := Index4.rep_of_build hC hw.toSuits3 hx
  obtain ⟨S, r1, r2⟩ := Index4.conj_beyond hC.ready std hr hw.ids hq
  rw [C06_blocks_unique (hC.ready.blocks hr.inverted.cut) hB] at r1
  exact ⟨S, r1, fun k hk s hs => r2 k hk s (type4_wf hC hw hx hs)⟩

/-- Conjunctive search with type 4 and `k = 0`: there are no results, or as many as there are, as if there were no limit; if these are more than 15,
C35 is false. The first case needs an incomplete last term or a known complete one. -/
theorem C35_conj4_zero {C : Coll} (hC : ValidColl C) (hw : Suits4 C) {std₀ : StdLib} {m : Nat} {mem : Nat → W} {x : Index4}
    (hx : Index4.build std₀ m (Pre.run C) mem = .ok x) {B : List (List Str)} (hB : IsBlocks C m B) (std : StdLib) {q : Str} (hq : IsText q) :
    ∃ S, Result4 C B (completeTerms q) (lastTerm q) S ∧ ∀ s, Visited x.ask s →
      (Shows (Pre.run C).terms [] (x.conjTopk std q 0 s) ∧ ((∀ t ∈ completeTerms q, ¬ IsTerm C t) → lastTerm q ≠ [])) ∨
      ((S.length ≤ MAX_K → Shows (Pre.run C).terms S (x.conjTopk std q 0 s)) ∧ (MAX_K < S.length → x.conjTopk std q 0 s = .error .oob)) := by
  obtain ⟨docss, hr⟩ := Index4.rep_of_build hC hw.toSuits3 hx
  obtain ⟨S, r1, r2⟩ := Index4.conj_zero hC.ready std hr hw.ids hq
  rw [C06_blocks_unique (hC.ready.blocks hr.inverted.cut) hB] at r1
  exact ⟨S, r1, fun s hs => r2 s (type4_wf hC hw hx hs)⟩

/-- C35 is false for conjunctive search with type 4: when no complete term is known and more than 15 completions are found in the blocks, `k > 15`
makes it write out of the buffer of scores, and so does `k = 0` when there is no incomplete term. -/
theorem C35_false_conj4 {C : Coll} (hC : ValidColl C) (hw : Suits4 C) {std₀ : StdLib} {m : Nat} {mem : Nat → W} {x : Index4}
    (hx : Index4.build std₀ m (Pre.run C) mem = .ok x) {B : List (List Str)} (hB : IsBlocks C m B) (std : StdLib) {q : Str} (hq : IsText q) {k : Nat}
    (hk : (k = 0 ∧ lastTerm q = []) ∨ MAX_K < k) (hn : ∀ t ∈ completeTerms q, ¬ IsTerm C t)
    (hm : ¬ AtMost C (fun c => ∃ b ∈ B, Looked C (lastTerm q) b ∧ FoundIn C (lastTerm q) b c) MAX_K) {s : Scratch} (hs : Visited x.ask s) :
    x.conjTopk std q k s = .error .oob := by
  have hlen : ∀ S, Result4 C B (completeTerms q) (lastTerm q) S → MAX_K < S.length := by
    intro S r1
    apply Classical.byContradiction
    intro hlt
    apply hm
    intro L hL hP
    refine Nat.le_trans (nodup_subset_length' hL ?_) (Nat.le_of_not_lt hlt)
    intro r hr
    obtain ⟨h1, b, h2, h3⟩ := hP r hr
    rw [← List.count_pos_iff, (r1.union hn).2 r h1]
    unfold copies
    refine List.length_pos_iff.mpr (List.ne_nil_of_mem (List.mem_filter.mpr ⟨h2, ?_⟩))
    simpa using h3
  rcases hk with ⟨rfl, hl⟩ | hk
  · obtain ⟨S, r1, r2⟩ := C35_conj4_zero hC hw hx hB std hq
    rcases r2 s hs with ⟨_, h⟩ | ⟨_, h⟩
    · exact absurd hl (h hn)
    · exact h (hlen S r1)
  · obtain ⟨S, r1, r2⟩ := C35_conj4 hC hw hx hB std hq
    refine (r2 k (by omega) s hs).2 ?_
    have := hlen S r1
    omega

/-- C35 is false of the web server: a request for 0 or more than 15 results, when more than 15 completions match. -/
theorem C35_false_web {C : Coll} (hC : ValidColl C) (hw : Suits1 C) {mem : Nat → W} {x : Index1} (hx : Index1.build (Pre.run C) mem = .ok x)
    (std : StdLib) {qarg karg : Option Str} (hq : IsText (Web.requestedQ qarg)) {k : Nat} (hka : Web.requestedK karg = .ok k) (hk : k = 0 ∨ MAX_K < k)
    (hm : ¬ AtMost C (ConjFound C (completeTerms (Web.requestedQ qarg)) (lastTerm (Web.requestedQ qarg))) MAX_K) {s : Scratch}
    (hs : Visited x.ask s) : Web.respond std x qarg karg s = .error .oob := by
  unfold Web.respond
  rw [hka, M.ok_bind, C35_false_conj1 hC std hq hk hw hx hm hs]
  rfl

/-! ## The hypotheses are met -/

theorem letters_many_conj : ¬ AtMost letters (ConjFound letters (completeTerms []) (lastTerm [])) MAX_K := by
  intro h
  have := h letters (by decide) (by
    intro r hr
    refine ⟨hr, ?_⟩
    obtain ⟨i, _, rfl⟩ := List.mem_map.mp hr
    refine ⟨fun t ht => by simp [completeTerms, pieces] at ht, [97 + i], by simp, List.nil_prefix, fun _ => Or.inl rfl⟩)
  revert this
  decide

/-- with the 20 letters, one of which makes a block of its own, the empty query and `k = 16` or `k = 0`, conjunctive search with type 4 leaves its
buffer -/
example (mem : Nat → W) (std : StdLib) : ∃ x, Index4.build std 1 (Pre.run letters) mem = .ok x ∧ x.conjTopk std [] 16 Scratch.fresh = .error .oob ∧
    x.conjTopk std [] 0 Scratch.fresh = .error .oob := by
  have hw : Suits4 letters := { letters_suits.to3 with ids := by decide +kernel }
  obtain ⟨x, docss, h1, hx⟩ := Index4.exists letters_valid.ready hw.toSuits3 std 1 mem
  have hB := letters_valid.ready.blocks hx.inverted.cut
  have hm : ¬ AtMost letters (fun c => ∃ b ∈ blocksOf (Pre.run letters).terms x.inverted.blocks, Looked letters (lastTerm []) b ∧ FoundIn letters (lastTerm []) b c) MAX_K := by
    intro h
    have := h letters.dropLast (by decide +kernel) (by
      intro r hr
      have hrl := List.dropLast_subset _ hr
      have h1 : ∀ r ∈ letters.dropLast, ∃ t, r.2 = [t] ∧ t < [97 + 19] := by
        intro r hr
        have : ∀ r ∈ letters.dropLast, r.2 = [r.2.headD []] ∧ r.2.headD [] < [97 + 19] := by decide +kernel
        exact ⟨_, this r hr⟩
      obtain ⟨t, ht, hlt⟩ := h1 r hr
      have hT : IsTerm letters t := ⟨r, hrl, by simp [ht]⟩
      have hre : ∀ y, Reaches letters [] y := fun y => ⟨List.nil_prefix, fun _ => Or.inl rfl⟩
      obtain ⟨b, hb, htb⟩ := List.mem_flatten.mp ((hB.terms t).mpr hT)
      exact ⟨hrl, b, hb, ⟨t, htb, hT, hre t, Or.inr ⟨[97 + 19], ⟨(20, [[97 + 19]]), by decide +kernel, by simp⟩, hre _, hlt⟩⟩, t, by simp [ht], htb, hre t⟩)
    revert this
    decide +kernel
  exact ⟨x, h1, C35_false_conj4 letters_valid hw h1 hB std (by decide) (Or.inr (by decide)) (by simp [completeTerms, pieces]) hm .fresh,
    C35_false_conj4 letters_valid hw h1 hB std (by decide) (Or.inl ⟨rfl, rfl⟩) (by simp [completeTerms, pieces]) hm .fresh⟩

/-- the empty request for 16 results, and the one for 4294967296 results -/
example (mem : Nat → W) : ∃ x, Index1.build (Pre.run letters) mem = .ok x ∧
    Web.respond StdLib.bySorting x none (some [49, 54]) Scratch.fresh = .error .oob ∧
    Web.respond StdLib.bySorting x none (some (Web.decimal (2 ^ 32))) Scratch.fresh = .error .oob := by
  obtain ⟨x, h1, h2⟩ := Index1.exists letters_valid.ready letters_suits.toSuits1 mem
  exact ⟨x, h1, C35_false_web letters_valid letters_suits.toSuits1 h1 _ (qarg := none) (by decide) (show Web.requestedK (some [49, 54]) = .ok 16 by decide +kernel)
      (Or.inr (by decide)) letters_many_conj .fresh,
    C35_false_web letters_valid letters_suits.toSuits1 h1 _ (qarg := none) (by decide) C44_bad_k.2.2 (Or.inl rfl) letters_many_conj .fresh⟩

/-- 15 completions "a b", "a bb", … with the document ids from 1 to 15, and "a c d" with the document id 16 -/
def crowd : Coll := (List.range 15).map (fun i => (i + 1, [[97], List.replicate (i + 1) 98])) ++ [(16, [[97], [99], [100]])]

theorem crowd_valid : ValidColl crowd :=
  ⟨by decide +kernel, by decide +kernel, by decide +kernel, by decide +kernel, by decide +kernel, by decide +kernel, by decide +kernel, by decide +kernel,
    by decide +kernel, by decide +kernel⟩

theorem crowd_suits : Suits2 crowd :=
  { terms := ⟨_, crowd_valid.ready.numTerms, by decide +kernel⟩
    doc0 := ⟨[97], ⟨(16, [[97], [99], [100]]), by decide +kernel, by decide +kernel⟩, fun c hc => by
      simp [crowd] at hc⟩
    count := by decide +kernel }

theorem crowd_query : completeTerms [97, 32, 98] = [[97]] ∧ lastTerm [97, 32, 98] = [98] := by decide

/-- the first 15 of them match "a b" -/
theorem crowd_found : ∀ r ∈ crowd, ConjFound crowd (completeTerms [97, 32, 98]) (lastTerm [97, 32, 98]) r.2 ↔ r.1 ≤ 15 := by
  rw [crowd_query.1, crowd_query.2]
  intro r hr
  rcases List.mem_append.mp hr with h | h
  · obtain ⟨i, hi, rfl⟩ := List.mem_map.mp h
    have hi := List.mem_range.mp hi
    refine ⟨fun _ => hi, fun _ => ⟨by simp, List.replicate (i + 1) 98, by simp, ⟨List.replicate i 98, rfl⟩, ?_⟩⟩
    rintro ⟨_, hf⟩
    have := hf [97] ⟨(16, [[97], [99], [100]]), by decide +kernel, by decide⟩
    exact absurd (List.Lex.rel (by decide)) this
  · have := List.mem_singleton.mp h
    subst this
    refine ⟨?_, fun h => absurd h (by decide)⟩
    rintro ⟨_, x, hx, h1, _⟩
    simp at hx
    rcases hx with rfl | rfl | rfl <;> revert h1 <;> decide

theorem crowd_few : AtMost crowd (ConjFound crowd (completeTerms [97, 32, 98]) (lastTerm [97, 32, 98])) MAX_K := by
  intro L h1 h2
  have : ∀ r ∈ L, r ∈ crowd.filter (fun r => decide (r.1 ≤ 15)) := fun r hr => by
    have := h2 r hr
    exact List.mem_filter.mpr ⟨this.1, by simpa using (crowd_found r this.1).mp this.2⟩
  have := nodup_subset_length' h1 this
  have h15 : (crowd.filter (fun r => decide (r.1 ≤ 15))).length = MAX_K := by decide +kernel
  omega

theorem crowd_crowded : (∃ t ∈ completeTerms [97, 32, 98], IsTerm crowd t) ∧ Crowded crowd (completeTerms [97, 32, 98]) (lastTerm [97, 32, 98]) := by
  refine ⟨⟨[97], by decide, (16, [[97], [99], [100]]), by decide +kernel, by decide⟩, crowd.filter (fun r => decide (r.1 ≤ 15)),
    (16, [[97], [99], [100]]), by decide +kernel, by decide +kernel, ?_, by decide +kernel, ?_⟩
  · intro r hr
    obtain ⟨h1, h2⟩ := List.mem_filter.mp hr
    have h2 : r.1 ≤ 15 := by simpa using h2
    exact ⟨h1, (crowd_found r h1).mpr h2, by show r.1 < 16; omega⟩
  · rw [crowd_query.1]
    intro t ht _
    rw [List.mem_singleton.mp ht]
    decide

/-- The query "a b" with `k = 16` in this collection: types 1 and 3 return the 15 matches, type 2 leaves its buffer. -/
example (mem : Nat → W) : ∃ x y z, Index1.build (Pre.run crowd) mem = .ok x ∧ Index2.build (Pre.run crowd) mem = .ok y ∧
    Index3.build (Pre.run crowd) mem = .ok z ∧
    (∃ t res, x.conjTopk StdLib.bySorting [97, 32, 98] 16 Scratch.fresh = .ok t ∧ t.pool.results = .ok res ∧ res.length = 15) ∧
    y.conjTopk StdLib.bySorting [97, 32, 98] 16 Scratch.fresh = .error .oob ∧
    (∃ t res, z.conjTopk StdLib.bySorting [97, 32, 98] 16 Scratch.fresh = .ok t ∧ t.pool.results = .ok res ∧ res.length = 15) := by
  obtain ⟨x, h1, _⟩ := Index1.exists crowd_valid.ready crowd_suits.toSuits1 mem
  obtain ⟨y, h2, _⟩ := Index2.exists crowd_valid.ready crowd_suits mem
  obtain ⟨z, h3, _⟩ := Index3.exists crowd_valid.ready crowd_suits.to3 mem
  have key : ∀ o, Outcome crowd (Pre.run crowd).terms (ConjFound crowd (completeTerms [97, 32, 98]) (lastTerm [97, 32, 98])) 16 o →
      ∃ t res, o = .ok t ∧ t.pool.results = .ok res ∧ res.length = 15 := by
    rintro o ⟨E, b, h⟩
    have hE : E.length = 15 := by
      have e1 := crowd_few E (b.sorted.imp (fun h e => by subst e; omega)) (fun r hr => b.sound r hr)
      have h15 : (crowd.filter (fun r => decide (r.1 ≤ 15))).length = 15 := by decide +kernel
      have h15' : MAX_K = 15 := rfl
      have e2 := nodup_subset_length' (A := crowd.filter (fun r => decide (r.1 ≤ 15))) (B := E) (by decide +kernel) (fun r hr => by
        obtain ⟨g1, g2⟩ := List.mem_filter.mp hr
        apply Classical.byContradiction
        intro hn
        have := (b.complete r g1 ((crowd_found r g1).mpr (by simpa using g2)) hn).1
        omega)
      omega
    have hroom : room E ≤ E.length * 17 := by
      have hl : ∀ r ∈ crowd, (joined r.2).length ≤ 17 := by decide +kernel
      exact room_le hl (fun r hr => (b.sound r hr).1)
    have h6 : POOL_SIZE = 1920 := by decide
    have h7 : 2 * MAX_CHARS = 256 := by decide
    rcases h with ⟨_, _, g⟩ | ⟨t, g1, _, g2, _⟩
    · omega
    · exact ⟨t, _, g1, g2, by rw [List.length_map, hE]⟩
  exact ⟨x, y, z, h1, h2, h3,
    key _ (C35_conj1 crowd_valid _ (by decide) (Or.inr (by decide)) crowd_suits.toSuits1 h1 (by decide) crowd_few .fresh),
    C35_false_conj2 crowd_valid _ (by decide) (Or.inr (by decide)) crowd_suits h2 (Or.inr crowd_crowded) .fresh,
    key _ (C35_conj3 crowd_valid _ (by decide) (Or.inr (by decide)) crowd_suits.to3 h3 (by decide) crowd_few .fresh)⟩

theorem letters_terms (t : Str) : IsTerm letters t ↔ t ∈ (List.range 20).map (fun i => [97 + i]) := by
  constructor
  · rintro ⟨r, hr, ht⟩
    obtain ⟨i, hi, rfl⟩ := List.mem_map.mp hr
    rw [List.mem_singleton.mp ht]
    exact List.mem_map.mpr ⟨i, hi, rfl⟩
  · intro h
    obtain ⟨i, hi, rfl⟩ := List.mem_map.mp h
    exact ⟨(i + 1, [[97 + i]]), List.mem_map.mpr ⟨i, hi, rfl⟩, by simp⟩

/-- the blocks of size 1 are the terms -/
theorem letters_blocks : IsBlocks letters 1 ((List.range 20).map (fun i => [[97 + i]])) :=
  ⟨by decide +kernel, fun t => by rw [letters_terms]; rfl, by decide +kernel, by decide +kernel, by decide +kernel⟩

/-- the empty query with `k = 16` in the collection of 20 letters, with type 4 -/
example (std₀ std : StdLib) (mem : Nat → W) : ∃ x, Index4.build std₀ 1 (Pre.run letters) mem = .ok x ∧
    x.conjTopk std [] 16 Scratch.fresh = .error .oob := by
  obtain ⟨x, _, h1, _⟩ := Index4.exists letters_valid.ready letters_suits.to3 std₀ 1 mem
  obtain ⟨S, r1, r2⟩ := C35_conj4 letters_valid ⟨letters_suits.to3, by decide⟩ h1 letters_blocks std (q := []) (by decide)
  refine ⟨x, h1, (r2 16 (by decide) _ .fresh).2 ?_⟩
  have hu := (r1.union (fun t ht => by simp [completeTerms, pieces] at ht)).2
  have hr : ∀ t : Str, Reaches letters (lastTerm []) t := fun t => ⟨List.nil_prefix, fun _ => Or.inl rfl⟩
  have hall : ∀ r ∈ letters.dropLast, r ∈ S := by
    intro r hd
    have hm : r ∈ letters := List.dropLast_subset _ hd
    have hlt : ∀ r ∈ letters.dropLast, ∀ x ∈ r.2, x < [116] := by decide +kernel
    have hlt := hlt r hd
    obtain ⟨i, hi, rfl⟩ := List.mem_map.mp hm
    refine List.count_pos_iff.mp ?_
    rw [hu _ hm]
    unfold copies
    apply List.length_pos_iff.mpr
    apply List.ne_nil_of_mem (a := [[97 + i]])
    refine List.mem_filter.mpr ⟨List.mem_map.mpr ⟨i, hi, rfl⟩, ?_⟩
    have ht : ∀ i ∈ List.range 20, IsTerm letters [97 + i] := fun i hi => (letters_terms _).mpr (List.mem_map.mpr ⟨i, hi, rfl⟩)
    exact @decide_eq_true _ (_) ⟨⟨[97 + i], by simp, ht i hi, hr _, Or.inr ⟨[97 + 19], ht 19 (by decide), hr _, hlt _ (by simp)⟩⟩,
      [97 + i], by simp, by simp, hr _⟩
  have := nodup_subset_length' (A := letters.dropLast) (B := S) (by decide +kernel) hall
  have h19 : letters.dropLast.length = 19 := by decide +kernel
  have h15 : MAX_K = 15 := rfl
  omega

end AC.Props
