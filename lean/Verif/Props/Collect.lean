import Verif.Model.Collect
import Verif.Spec.Collect
import Verif.Props.Installed
import Verif.Props.Lookups
/-!
# C81: which queries the scripts that collect results measure
-/
namespace AC.Props
open AC Spec

theorem Collect.results_eq {α : Type} (bench : Nat → Stream → α) {fs : List Str} (h : fs.length = 7) :
    Collect.results bench (Pre.queryFileNames.zip fs) = (List.range 4).flatMap fun j => (List.range 7).map fun i =>
      (j * 2 ^ 147, shardName i, bench (j * 2 ^ 147) (.ofText (fs.getD i []))) := by
  match fs, h with
  | [a, b, c, d, e, f, g], _ => rfl

theorem Collect.locatePrefix_eq {α : Type} (bench : Nat → Stream → α) {fs : List Str} (h : fs.length = 7) :
    Collect.locatePrefix bench (Pre.queryFileNames.zip fs) = (List.range 4).flatMap fun j => (List.range 6).map fun i =>
      (j * 2 ^ 147, shardName i, bench (j * 2 ^ 147) (.ofText (fs.getD i []))) := by
  match fs, h with
  | [a, b, c, d, e, f, g], _ => rfl

/-- a collection and the lines of its text -/
structure TextInput (C : Coll) (L : List (Str × Str × List Str)) : Prop where
  valid : ValidColl C
  lines : ∀ l ∈ L, Line l
  each : All2 (fun l r => l.2.2 = r.2) L C

theorem chosen_eq {C : Coll} {L : List (Str × Str × List Str)} (h : All2 (fun l r => l.2.2 = r.2) L C) (i : Nat) :
    (L.filter (fun l => OfLength i l.2.2)).map (fun l => joined l.2.2) =
      (C.filter fun r => ofShard i r.2).map fun r => joined r.2 := by
  induction h with
  | nil => rfl
  | @cons l r L C hl _ ih =>
      have e : decide (OfLength i l.2.2) = ofShard i r.2 := by
        rw [hl, Bool.eq_iff_iff]
        by_cases hi : i < 6 <;> simp [OfLength, ofShard, hi]
      rw [List.filter_cons, List.filter_cons, e]
      split
      · rw [List.map_cons, List.map_cons, ih, hl]
      · exact ih

section
variable {C : Coll} {L : List (Str × Str × List Str)} (h : TextInput C L) {shuffle : Nat → List Str → List Str} (hs : ∀ i l, (shuffle i l).Perm l) (n : Nat)
include h hs

/-- the files of queries -/
theorem chosen_files : ∃ Q : Nat → List Str, (Pre.partition shuffle n (textOf L)).length = 7 ∧
    ∀ i, i < 7 → Chosen C n i (Q i) ∧ (Pre.partition shuffle n (textOf L)).getD i [] = queryFile (Q i) ∧ Lines (queryFile (Q i)) (Q i) ∧
      ∀ s ∈ Q i, s ≠ [] ∧ s.length < 2 ^ 24 - 4 ∧ IsText s := by
  have hne : ∀ l ∈ L, l.2.2 ≠ [] := fun l hl => by
    obtain ⟨j, hj, rfl⟩ := List.getElem_of_mem hl
    have hj' : j < C.length := by rw [← h.each.length]; exact hj
    rw [h.each.get j hj hj']
    exact h.valid.nonempty _ (List.getElem_mem hj')
  obtain ⟨p1, p2⟩ := C54_partition_partial h.lines hne hs n
  have key : ∀ i, ∃ S : List Str, i < 7 → Chosen C n i S ∧ (Pre.partition shuffle n (textOf L)).getD i [] = queryFile S ∧ Lines (queryFile S) S ∧
      ∀ s ∈ S, s ≠ [] ∧ s.length < 2 ^ 24 - 4 ∧ IsText s := by
    intro i
    by_cases hi : i < 7
    · obtain ⟨S, R, g1, g2, g3⟩ := p2 i hi
      have g4 := congrArg List.length (chosen_eq h.each i)
      rw [List.length_map] at g4
      rw [chosen_eq h.each i] at g2
      have hS : ∀ s ∈ S, 10 ∉ s ∧ s ≠ [] ∧ s.length < 2 ^ 24 - 4 ∧ IsText s := by
        intro s hs'
        obtain ⟨r, hr, rfl⟩ := List.mem_map.mp (g2.mem_iff.mp (List.mem_append_left R hs'))
        have hrC := (List.mem_filter.mp hr).1
        have hw := h.valid.words _ hrC
        obtain ⟨j, hj, rfl⟩ := List.getElem_of_mem hrC
        have hj' : j < L.length := by rw [h.each.length]; exact hj
        have hl := h.lines _ (List.getElem_mem hj')
        have := h.valid.text_le _ hrC
        refine ⟨?_, ?_, by omega, Tests.joined_isText fun t ht => (hw t ht).2.1⟩
        · rw [← h.each.get j hj' hj]
          exact hl.words.joined_newline hl.newline (by decide)
        · have h1 := h.valid.nonempty _ hrC
          generalize C[j].2 = c at h1 hw
          intro e
          have h3 := joined_length c
          rw [e] at h3
          cases c with
          | nil => exact h1 rfl
          | cons t c =>
              have := List.length_pos_iff.mpr (hw t (by simp)).1
              simp at h3
              omega
      refine ⟨S, fun _ => ⟨⟨R, g2, by rw [← g4]; exact g3⟩, ?_, lines_queryFile (fun q hq => (hS q hq).1), fun s hs' => (hS s hs').2⟩⟩
      rw [List.getD_eq_getElem?_getD, g1]
      rfl
    · exact ⟨[], fun hc => absurd hc hi⟩
  obtain ⟨Q, hQ⟩ := Classical.axiomOfChoice key
  exact ⟨Q, p1, hQ⟩

/-- **C81** for any benchmark, as that of the effectiveness: after the preprocessing, the script makes a record for each of the four percentages and each of the seven files, which
is what the benchmark makes of the queries of the file, chosen among the completions of as many terms as the record says. -/
theorem C81_files {α : Type} (bench : Nat → Stream → α) :
    ∃ Q : Nat → List Str, (∀ i, i < 7 → Chosen C n i (Q i)) ∧
      Collect.results bench (Pre.queryFiles shuffle n (textOf L)) =
        (List.range 4).flatMap (fun j => (List.range 7).map fun i => (j * 2 ^ 147, shardName i, bench (j * 2 ^ 147) (.ofText (queryFile (Q i))))) := by
  obtain ⟨Q, p1, p2⟩ := chosen_files h hs n
  refine ⟨Q, fun i hi => (p2 i hi).1, ?_⟩
  rw [Pre.queryFiles, Collect.results_eq _ p1]
  have e : ∀ j, (List.range 7).map (fun i => (j * 2 ^ 147, shardName i, bench (j * 2 ^ 147) (.ofText ((Pre.partition shuffle n (textOf L)).getD i [])))) =
      (List.range 7).map (fun i => (j * 2 ^ 147, shardName i, bench (j * 2 ^ 147) (.ofText (queryFile (Q i))))) := by
    intro j
    refine List.map_congr_left fun i hi => ?_
    rw [(p2 i (List.mem_range.mp hi)).2.1]
  rw [show (fun j => (List.range 7).map (fun i => (j * 2 ^ 147, shardName i, bench (j * 2 ^ 147) (.ofText ((Pre.partition shuffle n (textOf L)).getD i []))))) = _ from funext e]

/-- **C81** for the benchmarks of the searches: after the preprocessing, the script makes a record for each of the four percentages and each of the seven files; the record
is that of the benchmark (C71) with the queries of the file, which are completions of as many terms as the record says, chosen by the preprocessing. -/
theorem C81_results {run : StdLib → Ask → Scratch → M Scratch} (hi : IsIndex C run) (std : StdLib) (conj : Bool) {k : Nat} (hk : 1 ≤ k ∧ k ≤ 15) (N : Nat) :
    ∃ (Q : Nat → List Str) (o : Nat → Nat → M (Nat × Nat)), (∀ i, i < 7 → Chosen C n i (Q i)) ∧
      Collect.results (fun p input => Bench.queryBenchmark (fun q s => run std ⟨conj, q, k⟩ s) p N input Scratch.fresh) (Pre.queryFiles shuffle n (textOf L)) =
        (List.range 4).flatMap (fun j => (List.range 7).map fun i => (j * 2 ^ 147, shardName i, o j i)) ∧
      ∀ j i, j < 4 → i < 7 → Reports run std conj k (j * 2 ^ 147) N (Q i) (o j i) := by
  obtain ⟨Q, p1, p2⟩ := chosen_files h hs n
  refine ⟨Q, fun j i => Bench.queryBenchmark (fun q s => run std ⟨conj, q, k⟩ s) (j * 2 ^ 147) N (.ofText ((Pre.partition shuffle n (textOf L)).getD i [])) Scratch.fresh,
    fun i hi => (p2 i hi).1, Collect.results_eq _ p1, fun j i hj hi' => ?_⟩
  obtain ⟨_, q2, q3, q4⟩ := p2 i hi'
  dsimp only
  rw [q2]
  exact C71_reported h.valid hi std conj hk (by omega) q3 N (fun l hl => q4 l (List.take_subset _ _ hl))

/-- What the script measures of `locate_prefix` after the preprocessing: there are records for the queries of one to six terms only.
Missing from the claim, and false: the queries of seven terms or more (`C81_false`). -/
theorem C81_locate_partial {α : Type} (bench : Nat → Stream → α) :
    ∃ Q : Nat → List Str, (∀ i, i < 7 → Chosen C n i (Q i)) ∧
      Collect.locatePrefix bench (Pre.queryFiles shuffle n (textOf L)) =
        (List.range 4).flatMap (fun j => (List.range 6).map fun i => (j * 2 ^ 147, shardName i, bench (j * 2 ^ 147) (.ofText (queryFile (Q i))))) := by
  obtain ⟨Q, p1, p2⟩ := chosen_files h hs n
  refine ⟨Q, fun i hi => (p2 i hi).1, ?_⟩
  rw [Pre.queryFiles, Collect.locatePrefix_eq _ p1]
  have e : ∀ j, (List.range 6).map (fun i => (j * 2 ^ 147, shardName i, bench (j * 2 ^ 147) (.ofText ((Pre.partition shuffle n (textOf L)).getD i [])))) =
      (List.range 6).map (fun i => (j * 2 ^ 147, shardName i, bench (j * 2 ^ 147) (.ofText (queryFile (Q i))))) := by
    intro j
    refine List.map_congr_left fun i hi => ?_
    rw [(p2 i (by have := List.mem_range.mp hi; omega)).2.1]
  rw [show (fun j => (List.range 6).map (fun i => (j * 2 ^ 147, shardName i, bench (j * 2 ^ 147) (.ofText ((Pre.partition shuffle n (textOf L)).getD i []))))) = _ from funext e]

/-- What the records say of the trie (C72): the ranges for the queries of the file, of as many as are asked for, with a part of the last term. -/
theorem C81_locate_trie (h17 : (Pre.run C).terms.length % 17 ≠ 0) (N : Nat) :
    ∃ d T, FcDict.build (Pre.run C).terms = .ok d ∧ Trie.build (Pre.run C).levels ((Pre.run C).mapped.map (·.2)) = .ok T ∧
      ∀ buf : Str, buf.length = FcDict.bufSize → ∃ (Q : Nat → List Str) (qs : Nat → Nat → List Str) (rs : Nat → Nat → List Range), (∀ i, i < 7 → Chosen C n i (Q i)) ∧
        Collect.locatePrefix (Collect.locateTrie d T N buf) (Pre.queryFiles shuffle n (textOf L)) =
          (List.range 4).flatMap (fun j => (List.range 6).map fun i => (j * 2 ^ 147, shardName i, .ok (List.replicate 5 (rs j i)))) ∧
        ∀ j i, j < 4 → i < 6 → All2 (Shortened (j * 2 ^ 147) (2 ^ 149)) ((Q i).take N) (qs j i) ∧
          All2 (fun q r => ∃ done last, StopsAt C q done last ∧ IsRangeOf C (Shifted C done last) r) (qs j i) (rs j i) := by
  obtain ⟨d, T, d1, t1, _⟩ := C72_trie_exact h.valid h17 [] (by simp)
  refine ⟨d, T, d1, t1, fun buf hb => ?_⟩
  obtain ⟨Q, p1, p2⟩ := chosen_files h hs n
  have key : ∀ ji : Nat × Nat, ∃ o : List Str × List Range, ji.1 < 4 → ji.2 < 6 →
      Collect.locateTrie d T N buf (ji.1 * 2 ^ 147) (.ofText ((Pre.partition shuffle n (textOf L)).getD ji.2 [])) = .ok (List.replicate 5 o.2) ∧
      All2 (Shortened (ji.1 * 2 ^ 147) (2 ^ 149)) ((Q ji.2).take N) o.1 ∧
      All2 (fun q r => ∃ done last, StopsAt C q done last ∧ IsRangeOf C (Shifted C done last) r) o.1 o.2 := by
    rintro ⟨j, i⟩
    by_cases hji : j < 4 ∧ i < 6
    · obtain ⟨_, q2, q3, q4⟩ := p2 i (by omega)
      obtain ⟨qs, b1, b2, b3⟩ := C53_queries (p := j * 2 ^ 147) (by omega) q3 N (fun l hm => ⟨(q4 l (List.take_subset _ _ hm)).1, (q4 l (List.take_subset _ _ hm)).2.1⟩)
      have hqt := Bench.loadQueries_text q3 (fun l hm => (q4 l (List.take_subset _ _ hm)).2.2) b1
      obtain ⟨d', T', d2, t2, f⟩ := C72_trie_exact h.valid h17 qs hqt
      rw [d1] at d2
      rw [t1] at t2
      cases d2
      cases t2
      obtain ⟨rs, r1, r2⟩ := f buf hb
      refine ⟨(qs, rs), fun _ _ => ⟨?_, .of_get (by rw [b2, List.length_take]) (fun l hl hl' => ?_), r2⟩⟩
      · dsimp only
        rw [q2, Collect.locateTrie, b1, M.ok_bind, r1]
      · dsimp only at hl hl' ⊢
        rw [List.length_take] at hl
        exact b3 l _ _ (by rw [List.getElem_take]; exact List.getElem?_eq_getElem _) (List.getElem?_eq_getElem hl')
    · exact ⟨([], []), fun a b => absurd ⟨a, b⟩ hji⟩
  obtain ⟨o, ho⟩ := Classical.axiomOfChoice key
  refine ⟨Q, fun j i => (o (j, i)).1, fun j i => (o (j, i)).2, fun i hi => (p2 i hi).1, ?_, fun j i hj hi => (ho (j, i) hj hi).2⟩
  rw [Pre.queryFiles, Collect.locatePrefix_eq _ p1]
  rw [List.flatMap_def, List.flatMap_def]
  refine congrArg List.flatten (List.map_congr_left fun j hj => List.map_congr_left fun i hi => ?_)
  rw [(ho (j, i) (List.mem_range.mp hj) (List.mem_range.mp hi)).1]

/-- **C81 is false** for `locate_prefix`: when there are completions of seven terms or more, some of them are chosen as queries, but the script measures none of them. -/
theorem C81_false (hn : 0 < n) (hlong : ∃ r ∈ C, 7 ≤ r.2.length) :
    ∃ Q : List Str, Chosen C n 6 Q ∧ Q ≠ [] ∧ (Pre.queriesName ++ shardName 6, queryFile Q) ∈ Pre.queryFiles shuffle n (textOf L) ∧
      ∀ (α : Type) (bench : Nat → Stream → α), ∀ rec ∈ Collect.locatePrefix bench (Pre.queryFiles shuffle n (textOf L)),
        ∃ S : List Str, rec.2.2 = bench rec.1 (.ofText (queryFile S)) ∧ ∀ s ∈ S, ∃ r ∈ C, s = joined r.2 ∧ r.2.length < 7 := by
  obtain ⟨Q, p1, p2⟩ := chosen_files h hs n
  obtain ⟨⟨R, q1, q2⟩, q3, _, _⟩ := p2 6 (by omega)
  refine ⟨Q 6, ⟨R, q1, q2⟩, ?_, ?_, ?_⟩
  · obtain ⟨r, hr, hl⟩ := hlong
    have : r ∈ C.filter fun r => ofShard 6 r.2 := List.mem_filter.mpr ⟨hr, by simpa [ofShard] using hl⟩
    have := List.length_pos_of_mem this
    intro hc
    rw [hc, List.length_map] at q2
    simp only [List.length_nil] at q2
    omega
  · rw [← q3, Pre.queryFiles]
    generalize Pre.partition shuffle n (textOf L) = fs at p1
    match fs, p1 with
    | [a, b, c, d, e, f, g], _ =>
        exact List.mem_of_getElem? (i := 6) rfl
  · intro α bench rec hrec
    rw [Pre.queryFiles, Collect.locatePrefix_eq _ p1] at hrec
    obtain ⟨j, _, hrec⟩ := List.mem_flatMap.mp hrec
    obtain ⟨i, hi, rfl⟩ := List.mem_map.mp hrec
    have hi := List.mem_range.mp hi
    obtain ⟨⟨R', a1, _⟩, a2, _⟩ := p2 i (by omega)
    refine ⟨Q i, by dsimp only; rw [a2], fun s hs' => ?_⟩
    obtain ⟨r, hr, rfl⟩ := List.mem_map.mp (a1.mem_iff.mp (List.mem_append_left R' hs'))
    obtain ⟨hr1, hr2⟩ := List.mem_filter.mp hr
    refine ⟨r, hr1, rfl, ?_⟩
    simp only [ofShard, if_pos hi, beq_iff_eq] at hr2
    omega

end

theorem sevenText : TextInput sevenColl sevenLines := ⟨sevenColl_valid, sevenInput.lines, sevenInput.each.imp fun _ _ h => h.2⟩

/-- The collection of one completion of eight terms meets the conditions: it is chosen as a query, and is not measured. There are 24 records, and 28 for the benchmarks of the
searches. -/
example : ∃ Q : List Str, Q ≠ [] ∧ (Pre.queriesName ++ [55, 43], queryFile Q) ∈ Pre.queryFiles (fun _ l => l) 300 (textOf sevenLines) ∧
    (Collect.locatePrefix (fun p _ => p) (Pre.queryFiles (fun _ l => l) 300 (textOf sevenLines))).length = 24 ∧
    (Collect.results (fun p _ => p) (Pre.queryFiles (fun _ l => l) 300 (textOf sevenLines))).length = 28 ∧ (Pre.run sevenColl).terms.length % 17 ≠ 0 := by
  obtain ⟨Q, _, h2, h3, _⟩ := C81_false sevenText (fun _ l => .refl l) 300 (by decide) ⟨_, List.mem_cons_self .., by decide⟩
  obtain ⟨_, p1, _⟩ := chosen_files sevenText (fun _ l => .refl l) 300
  refine ⟨Q, h2, h3, ?_, ?_, by decide +kernel⟩
  · rw [Pre.queryFiles, Collect.locatePrefix_eq _ p1]; rfl
  · rw [Pre.queryFiles, Collect.results_eq _ p1]; rfl

end AC.Props
