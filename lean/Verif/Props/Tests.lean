import Verif.Proofs.TestsDict
import Verif.Proofs.TestsIndex
import Verif.Proofs.TestsBlocked
import Verif.Proofs.TestsUnsorted
import Verif.Props.Trie
import Verif.Props.ForwardIndex
import Verif.Props.Completions
/-!
# C75: the tests of the repository
-/
namespace AC.Props
open Spec Tests

/-! ## The dictionaries -/

/-- The test of the dictionary of terms ends without fault. It passes iff the number of terms is not a multiple of 17 and the first
term has at most one character. -/
theorem C75_terms_exact {L : List Str} (v : ValidTerms L) (hne : L ≠ []) :
    terms L = .ok (decide (L.length % 17 ≠ 0 ∧ (L.head hne).length ≤ 1)) := terms_spec v hne

example : ValidTerms sampleTerms ∧ sampleTerms ≠ [] := ⟨sampleTerms_valid, by decide⟩

/-- Missing from the claim: numbers of terms that are multiples of 17, and first terms of more than one character. -/
theorem C75_terms_partial {L : List Str} (v : ValidTerms L) (hne : L ≠ []) (hn : L.length % 17 ≠ 0) (hh : (L.head hne).length ≤ 1) :
    terms L = .ok true := by
  rw [terms_spec v hne, decide_eq_true ⟨hn, hh⟩]

example : ValidTerms ([33] :: sampleTerms.drop 3) ∧ ([33] :: sampleTerms.drop 3).length % 17 ≠ 0 ∧
    (([33] :: sampleTerms.drop 3).head (by decide)).length ≤ 1 := by decide +kernel

/-- The test rejects every dictionary whose first term has two characters or more. -/
theorem C75_false_terms {L : List Str} (v : ValidTerms L) (hne : L ≠ []) (hh : 2 ≤ (L.head hne).length) : terms L = .ok false := by
  rw [terms_spec v hne, decide_eq_false (fun h => by omega)]

example : ValidTerms sampleTerms ∧ ∃ hne : sampleTerms ≠ [], 2 ≤ (sampleTerms.head hne).length := ⟨sampleTerms_valid, by decide, by decide⟩

/-- The test of the dictionary of completions passes iff the number of completions is not a multiple of 17; otherwise an access is out
of bounds. -/
theorem C75_completions_exact {univ : Nat} {rs : List (Nat × Ids)} (v : ValidIds (rs.map (·.2))) (hu : ∀ r ∈ rs, r.1 < univ)
    (hd : (rs.map (·.1)).Nodup) (hne : rs ≠ []) : completions univ rs = if rs.length % 17 = 0 then .error .oob else .ok true :=
  completions_spec v hu hd hne

/-- Missing from the claim: numbers of completions that are multiples of 17. -/
theorem C75_completions_partial {univ : Nat} {rs : List (Nat × Ids)} (v : ValidIds (rs.map (·.2))) (hu : ∀ r ∈ rs, r.1 < univ)
    (hd : (rs.map (·.1)).Nodup) (hn : rs.length % 17 ≠ 0) : completions univ rs = .ok true := by
  have hne : rs ≠ [] := fun h => by subst h; simp at hn
  rw [completions_spec v hu hd hne, if_neg hn]

example : ValidIds (sampleRecords.map (·.2)) ∧ (∀ r ∈ sampleRecords, r.1 < 22) ∧ (sampleRecords.map (·.1)).Nodup ∧
    sampleRecords.length % 17 ≠ 0 := sampleRecords_ok

/-- The test of the dictionary of completions leaves its memory for every multiple of 17. -/
theorem C75_false_completions {univ : Nat} {rs : List (Nat × Ids)} (v : ValidIds (rs.map (·.2))) (hu : ∀ r ∈ rs, r.1 < univ)
    (hd : (rs.map (·.1)).Nodup) (hne : rs ≠ []) (hn : rs.length % 17 = 0) : completions univ rs = .error .oob := by
  rw [completions_spec v hu hd hne, if_pos hn]

example : ValidIds ((sampleRecords.take 17).map (·.2)) ∧ (∀ r ∈ sampleRecords.take 17, r.1 < 22) ∧ ((sampleRecords.take 17).map (·.1)).Nodup ∧
    sampleRecords.take 17 ≠ [] ∧ (sampleRecords.take 17).length % 17 = 0 := by decide +kernel

/-! ## The trie -/

/-- the test of the trie passes -/
theorem C75_trie (L : List Ids) (v : ValidIds L) (hne : ∀ s ∈ L, s ≠ []) (levels : Nat)
    (hmax : ∃ c ∈ L, c.length + 1 = levels) (hlt : ∀ c ∈ L, c.length < levels) : Tests.trie levels L = .ok true := by
  obtain ⟨T, t1, _, t2⟩ := C13_trie L v hne levels hmax hlt
  unfold Tests.trie
  rw [t1, M.ok_bind]
  refine membersOk_spec t2 L fun c hc => ⟨hc, fun x hx => ?_⟩
  have := v.elems c hc x hx
  omega

example : ValidIds (sampleRecords.map (·.2)) ∧ (∀ s ∈ sampleRecords.map (·.2), s ≠ []) ∧
    (∃ c ∈ sampleRecords.map (·.2), c.length + 1 = 4) ∧ ∀ c ∈ sampleRecords.map (·.2), c.length < 4 := by decide +kernel

/-! ## The inverted index -/

/-- The test of the lists passes. -/
theorem C75_inverted {u : Nat} {lists : List (List Nat)} (h : InvLists u lists) (after : W) : inverted u lists after = .ok true :=
  inverted_spec h after

/-- The loop of the test notices every difference: with the index of some lists, it accepts no others. -/
theorem C75_inverted_notices {u : Nat} {lists : List (List Nat)} (h : InvLists u lists) (after : W) :
    ∃ b ii, InvBuilder.mk' u lists = .ok b ∧ b.build after = .ok ii ∧
      ∀ expected : List (List Nat), expected.length = lists.length → listsOk ii expected 0 = .ok (decide (expected = lists)) := by
  obtain ⟨b, e1, _, e3⟩ := InvBuilder.build_spec h
  obtain ⟨ii, f1, R⟩ := e3 after
  refine ⟨b, ii, e1, f1, fun A hA => ?_⟩
  rw [listsOk_spec R A 0 (by omega), List.drop_zero]

/-- The test of the intersections passes, if each query gets two different terms after some time. -/
theorem C75_intersections (std : StdLib) {fuel u : Nat} {lists : List (List Nat)} (h : InvLists u lists) (after : W) {draws : List (Nat → List Nat)}
    (hd : ∀ draw ∈ draws, Drawn lists.length fuel draw) : intersections std fuel u lists after draws = .ok true :=
  intersections_spec std h after hd

/-- With one term the test does not end. -/
theorem C75_false_intersections (std : StdLib) (fuel : Nat) {u : Nat} {l : List Nat} (h : InvLists u [l]) (after : W) {draw : Nat → List Nat}
    {draws : List (Nat → List Nat)} (hd : ∀ i, ∀ x ∈ draw i, 1 ≤ x ∧ x ≤ 1) :
    intersections std fuel u [l] after (draw :: draws) = .error .diverge :=
  intersections_diverge std fuel h after hd

example : InvLists 9 exLists ∧ (∀ draw ∈ [fun i => if i = 0 then [3, 3] else [1, 5, 3, 1]], Drawn exLists.length 2 draw) ∧ InvLists 3 [[0, 2]] := by
  refine ⟨⟨by decide, by decide, by decide, by decide⟩, ?_, ⟨by decide, by decide, by decide, by decide⟩⟩
  intro draw hd
  simp only [List.mem_singleton] at hd
  subst hd
  refine ⟨fun i x hx => ?_, 1, by decide, 1, by decide, 5, by decide, by decide⟩
  dsimp only at hx
  split at hx <;> revert x <;> decide

/-! ## The blocked inverted index -/

/-- The test of the blocked inverted index ends without fault. It fails iff, for one of the four sizes of the blocks, the terms of a query lie
in one block, the first document of which has all of them. -/
theorem C75_blocked_exact (std : StdLib) {fuel u : Nat} {lists : List (List Nat)} (hL : BlkLists u lists) (hu : u + 1 < 2 ^ 32) (after : W) (mem : Nat → W)
    {draws : List (Nat → List Nat)} (hd : ∀ draw ∈ draws, Drawn lists.length fuel draw) {qs : List Ids} (hq : All2 QueryOf draws qs) :
    ∃ r, blocked std fuel u lists after mem draws = .ok r ∧
      (r = true ↔ ∀ c ∈ cs, ∀ m bounds, blockSize u c = .ok m → IsCut lists m bounds → ∀ q ∈ qs, ∀ d, ¬ LostIn lists bounds q d) :=
  blocked_spec std hL hu after mem hd hq

/-- Missing from the claim: queries whose terms lie in one block, the first document of which has all of them. -/
theorem C75_blocked_partial (std : StdLib) {fuel u : Nat} {lists : List (List Nat)} (hL : BlkLists u lists) (hu : u + 1 < 2 ^ 32) (after : W) (mem : Nat → W)
    {draws : List (Nat → List Nat)} (hd : ∀ draw ∈ draws, Drawn lists.length fuel draw) {qs : List Ids} (hq : All2 QueryOf draws qs)
    (hl : ∀ c ∈ cs, ∀ m bounds, blockSize u c = .ok m → IsCut lists m bounds → ∀ q ∈ qs, ∀ d, ¬ LostIn lists bounds q d) :
    blocked std fuel u lists after mem draws = .ok true := by
  obtain ⟨r, r1, r2⟩ := blocked_spec std hL hu after mem hd hq
  rw [r1, r2.mpr hl]

/-- the rounds of the query with the terms `1` and `2` -/
theorem drawn_two : Drawn 2 1 (fun _ => [1, 2]) ∧ QueryOf (fun _ => [1, 2]) [1, 2] := by
  refine ⟨⟨fun _ x hx => ?_, 0, by decide, 1, by decide, 2, by decide, by decide⟩, by decide, 0, fun j hj => by omega, ⟨1, by decide, 2, by decide, by decide⟩, fun _ => Iff.rfl⟩
  change x ∈ [1, 2] at hx
  revert x
  decide

/-- no document has both terms -/
example : BlkLists 100 [[0], [3, 7]] ∧ ∀ c ∈ cs, ∀ m bounds, blockSize 100 c = .ok m → IsCut [[0], [3, 7]] m bounds →
    ∀ q ∈ [[1, 2]], ∀ d, ¬ LostIn [[0], [3, 7]] bounds q d := by
  refine ⟨⟨⟨by decide, by decide, by decide, by decide⟩, by decide⟩, ?_⟩
  intro c _ m bounds _ _ q hq d ⟨h, _⟩
  simp only [List.mem_singleton] at hq
  subst hq
  have h1 := (mem_getD_iff (lists := [[0], [3, 7]]) (d := d) (by decide : 1 ≤ 1)).mpr (h 1 (by decide))
  have h2 := (mem_getD_iff (lists := [[0], [3, 7]]) (d := d) (by decide : 1 ≤ 2)).mpr (h 2 (by decide))
  simp at h1 h2
  omega

/-- two terms whose lists have only the document 0, of 100: the test fails -/
theorem C75_false_blocked (std : StdLib) (after : W) (mem : Nat → W) :
    blocked std 1 100 [[0], [0]] after mem [fun _ => [1, 2]] = .ok false := by
  obtain ⟨r, r1, r2⟩ := blocked_spec std (fuel := 1) (u := 100) (lists := [[0], [0]]) ⟨⟨by decide, by decide, by decide, by decide⟩, by decide⟩ (by decide) after mem
    (draws := [fun _ => [1, 2]]) (by
      intro draw hd
      simp only [List.mem_singleton] at hd
      subst hd
      exact drawn_two.1) (qs := [[1, 2]]) (.cons drawn_two.2 .nil)
  rw [r1]
  cases r with
  | false => rfl
  | true =>
      refine absurd ⟨?_, ?_⟩ (r2.mp rfl (13421773 * 2 ^ 121) (by decide) 5 [2] (by decide +kernel) ⟨by decide, by decide, ?_, ?_⟩ [1, 2] (by decide) 0)
      · intro j lo hi hlo hhi
        cases j with
        | zero => right; simpa using hhi.symm
        | succ j => simp at hhi
      · intro j lo hi hlo hhi x hx1 hx2
        cases j with
        | zero =>
            obtain rfl : (0 : Nat) = lo := by simpa using hlo
            obtain rfl : (2 : Nat) = hi := by simpa using hhi
            obtain rfl : x = 1 := by omega
            decide
        | succ j => simp at hhi
      · exact fun t ht => ⟨by revert t; decide, [0], by revert t; decide, by decide⟩
      · refine ⟨0, 0, 2, rfl, rfl, by decide, ⟨1, by decide, by decide, by decide, [0], rfl, by decide⟩, fun t e _ _ _ => Nat.zero_le e⟩

/-! ## The forward index -/

/-- The test of the forward index passes. Missing from the claim: collections with fewer documents than terms. -/
theorem C75_forward_partial {numTerms : Nat} {lists : List (List Nat)} (h : FwdLists numTerms lists) (after : W) (hn : numTerms ≤ lists.length) :
    forward numTerms lists after = .ok true := by
  obtain ⟨fi, f1, R⟩ := FwdIdx.build_spec h after
  unfold forward
  rw [f1, M.ok_bind, forwardOk_spec R lists rfl hn]
  simp

example : FwdLists 5 [[2, 1, 2], [], [5], [4, 4], [3, 2, 1], [1]] ∧ 5 ≤ [[2, 1, 2], [], [5], [4, 4], [3, 2, 1], [1]].length :=
  ⟨⟨by decide, by decide, by decide, by decide⟩, by decide⟩

/-- The test reads out of bounds if there are fewer documents than terms. -/
theorem C75_false_forward {numTerms : Nat} {lists : List (List Nat)} (h : FwdLists numTerms lists) (after : W) (hn : lists.length < numTerms) :
    forward numTerms lists after = .error .oob := forward_past h after hn

example : FwdLists 5 [[2, 1, 2], [], [5]] ∧ [[2, 1, 2], [], [5]].length < 5 := ⟨⟨by decide, by decide, by decide, by decide⟩, by decide⟩

/-- The test does not notice differences in the lists after the first ones, as many as there are terms. -/
theorem C75_forward_notices {numTerms : Nat} {lists : List (List Nat)} (h : FwdLists numTerms lists) (after : W) (hn : numTerms ≤ lists.length) :
    ∃ fi, FwdIdx.build numTerms lists after = .ok fi ∧ ∀ expected : List (List Nat), expected.length = lists.length →
      forwardOk fi numTerms expected = .ok (decide (expected.take numTerms = lists.take numTerms)) := by
  obtain ⟨fi, f1, R⟩ := FwdIdx.build_spec h after
  exact ⟨fi, f1, fun expected he => forwardOk_spec R expected he hn⟩

/-! ## The list of documents -/

/-- the test on the documents of the completions passes -/
theorem C75_documents (std : StdLib) (v : List Nat) (after1 after2 : W) (hlen : v.length < 2 ^ 30 - 1) (hsmall : ∀ x ∈ v, x < 2 ^ 32) (hpos : ∃ x ∈ v, x ≠ 0)
    (draws : List (Nat × Nat)) (hd : ∀ d ∈ draws, d.1 ≤ v.length ∧ d.2 ≤ v.length) : unsorted std false v after1 after2 draws = .ok true :=
  unsorted_plain std v after1 after2 hlen hsmall hpos draws hd

/-- The test on the first documents of the lists ends without fault. It fails iff a part of at most 10 values is drawn in which a value
occurs twice. -/
theorem C75_minimal_exact (std : StdLib) (v : List Nat) (after1 after2 : W) (hlen : v.length < 2 ^ 30 - 1) (hsmall : ∀ x ∈ v, x < 2 ^ 32) (hpos : ∃ x ∈ v, x ≠ 0)
    (draws : List (Nat × Nat)) (hd : ∀ d ∈ draws, d.1 ≤ v.length ∧ d.2 ≤ v.length) : ∃ r, unsorted std true v after1 after2 draws = .ok r ∧
    (r = true ↔ ∀ d ∈ draws, max d.1 d.2 - min d.1 d.2 ≤ 10 → ((v.drop (min d.1 d.2)).take (max d.1 d.2 - min d.1 d.2)).Nodup) :=
  unsorted_uniq std v after1 after2 hlen hsmall hpos draws hd

/-- Missing from the claim: parts of at most 10 values in which a value occurs twice. -/
theorem C75_minimal_partial (std : StdLib) (v : List Nat) (after1 after2 : W) (hlen : v.length < 2 ^ 30 - 1) (hsmall : ∀ x ∈ v, x < 2 ^ 32) (hpos : ∃ x ∈ v, x ≠ 0)
    (draws : List (Nat × Nat)) (hd : ∀ d ∈ draws, d.1 ≤ v.length ∧ d.2 ≤ v.length)
    (hn : ∀ d ∈ draws, max d.1 d.2 - min d.1 d.2 ≤ 10 → ((v.drop (min d.1 d.2)).take (max d.1 d.2 - min d.1 d.2)).Nodup) :
    unsorted std true v after1 after2 draws = .ok true := by
  obtain ⟨r, r1, r2⟩ := unsorted_uniq std v after1 after2 hlen hsmall hpos draws hd
  rw [r1, r2.mpr hn]

example : [9, 4, 7, 1, 4, 4, 8, 2, 6, 5, 3, 0].length < 2 ^ 30 - 1 ∧ (∀ x ∈ [9, 4, 7, 1, 4, 4, 8, 2, 6, 5, 3, 0], x < 2 ^ 32) ∧
    (∃ x ∈ [9, 4, 7, 1, 4, 4, 8, 2, 6, 5, 3, 0], x ≠ 0) ∧
    (∀ d ∈ [(12, 0), (5, 12), (3, 3)], d.1 ≤ [9, 4, 7, 1, 4, 4, 8, 2, 6, 5, 3, 0].length ∧ d.2 ≤ [9, 4, 7, 1, 4, 4, 8, 2, 6, 5, 3, 0].length) ∧
    (∀ d ∈ [(12, 0), (5, 12), (3, 3)], max d.1 d.2 - min d.1 d.2 ≤ 10 →
      (([9, 4, 7, 1, 4, 4, 8, 2, 6, 5, 3, 0].drop (min d.1 d.2)).take (max d.1 d.2 - min d.1 d.2)).Nodup) := by decide

/-- The test fails when two neighbours with the same first document are drawn. -/
theorem C75_false_minimal (std : StdLib) (v : List Nat) (after1 after2 : W) (hlen : v.length < 2 ^ 30 - 1) (hsmall : ∀ x ∈ v, x < 2 ^ 32) (hpos : ∃ x ∈ v, x ≠ 0)
    (draws : List (Nat × Nat)) (hd : ∀ d ∈ draws, d.1 ≤ v.length ∧ d.2 ≤ v.length) {i : Nat} {x : Nat} (h1 : v[i]? = some x) (h2 : v[i + 1]? = some x)
    (hi : (i, i + 2) ∈ draws) : unsorted std true v after1 after2 draws = .ok false := by
  obtain ⟨r, r1, r2⟩ := unsorted_uniq std v after1 after2 hlen hsmall hpos draws hd
  rw [r1]
  cases r with
  | false => rfl
  | true =>
      have := r2.mp rfl _ hi (by dsimp only; omega)
      dsimp only [part] at this
      obtain ⟨l1, g1⟩ := List.getElem?_eq_some_iff.mp h1
      obtain ⟨l2, g2⟩ := List.getElem?_eq_some_iff.mp h2
      rw [Nat.min_eq_left (by omega), Nat.max_eq_right (by omega), show i + 2 - i = 2 by omega, List.drop_eq_getElem_cons l1, List.drop_eq_getElem_cons l2, g1, g2] at this
      simp at this

example : (3, 5) ∈ [(12, 0), (3, 5)] ∧ [9, 4, 7, 4, 4, 8][3]? = some 4 ∧ [9, 4, 7, 4, 4, 8][3 + 1]? = some 4 := by decide

end AC.Props
