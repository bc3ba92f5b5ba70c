import Verif.Proofs.TestsSearch
import Verif.Props.TextPrefix
import Verif.Props.Answers
/-!
# C75: the tests of the searches
-/
namespace AC.Props
open AC Spec Tests

/-- The input of the test of `locate_prefix`: a collection of terms whose characters come after the space, with its text, and the files of queries, `ls n` being the lines
of the one with the queries of `n` terms. All that the test asks of the first 5000 lines has known complete terms, and a last term for which the dictionary
finds something. -/
structure TestInput (C : Coll) (coll : Str) (text : Nat → Str) (ls : Nat → List Str) : Prop where
  valid : ValidColl C
  after : ∀ r ∈ C, ∀ t ∈ r.2, AfterSpace t
  terms : ∃ n, NumTerms C n ∧ n % 17 ≠ 0
  count : C.length % 17 ≠ 0
  coll : ∃ cl, Lines coll cl ∧ All2 LineOf cl C
  lines : ∀ n, 1 ≤ n → n ≤ 7 → Lines (text n) (ls n)
  short : ∀ n, 1 ≤ n → n ≤ 7 → ∀ l ∈ (ls n).take 5000, l ≠ [] ∧ l.length < 2 ^ 24 - 4
  known : ∀ i n, i ≤ 4 → 1 ≤ n → n ≤ 7 → ∀ l ∈ (ls n).take 5000, ∀ q, Shortened (i * 2 ^ 147) (2 ^ 149) l q → LooksUp C q

theorem mem_rounds {p n : Nat} : (p, n) ∈ rounds ↔ (∃ i, i ≤ 4 ∧ p = i * 2 ^ 147) ∧ 1 ≤ n ∧ n ≤ 7 := by
  unfold rounds percentages
  simp only [List.mem_flatMap, List.mem_map, Prod.mk.injEq, List.mem_cons, List.not_mem_nil, or_false, exists_eq_right_right]
  constructor
  · rintro ⟨ha, hn⟩
    refine ⟨?_, by omega, by omega⟩
    rcases ha with rfl | rfl | rfl | rfl | rfl
    · exact ⟨0, by omega, by decide⟩
    · exact ⟨1, by omega, by decide⟩
    · exact ⟨2, by omega, by decide⟩
    · exact ⟨3, by omega, by decide⟩
    · exact ⟨4, by omega, by decide⟩
  · rintro ⟨⟨i, hi, rfl⟩, h1, h2⟩
    refine ⟨?_, by omega⟩
    rcases (by omega : i = 0 ∨ i = 1 ∨ i = 2 ∨ i = 3 ∨ i = 4) with rfl | rfl | rfl | rfl | rfl <;> decide

section
variable {C : Coll} {coll : Str} {text : Nat → Str} {ls : Nat → List Str} (h : TestInput C coll text ls)
include h

/-- When the test of `locate_prefix` passes, exactly: `Q i n` are the queries that it makes of the lines of file `n` with the fraction `i / 4`. It passes when
for each of them both structures find some completion, and exactly those whose text begins with the query. -/
theorem C75_searches_exact : ∃ Q : Nat → Nat → List Str,
    (∀ i n, i ≤ 4 → 1 ≤ n → n ≤ 7 → All2 (Shortened (i * 2 ^ 147) (2 ^ 149)) ((ls n).take 5000) (Q i n)) ∧ (∀ n, 1 ≤ n → n ≤ 7 → Q 4 n = (ls n).take 5000) ∧
    ∃ r, searches (Pre.run C) coll (fun n => some (text n)) = .ok r ∧ (r = true ↔ ∀ i n, i ≤ 4 → 1 ≤ n → n ≤ 7 → ∀ q ∈ Q i n, Passes C q) := by
  have key : ∀ i n, ∃ qs, i ≤ 4 → 1 ≤ n → n ≤ 7 → Bench.loadQueries (i * 2 ^ 147) 5000 (.ofText (text n)) = .ok qs ∧
      All2 (Shortened (i * 2 ^ 147) (2 ^ 149)) ((ls n).take 5000) qs := by
    intro i n
    by_cases hin : i ≤ 4 ∧ 1 ≤ n ∧ n ≤ 7
    · obtain ⟨qs, h1, h2, h3⟩ := C53_queries (p := i * 2 ^ 147) (by omega) (h.lines n hin.2.1 hin.2.2) 5000 (h.short n hin.2.1 hin.2.2)
      refine ⟨qs, fun _ _ _ => ⟨h1, .of_get (by rw [h2, List.length_take]) (fun j hj hj' => ?_)⟩⟩
      rw [List.length_take] at hj
      exact h3 j _ _ (by rw [List.getElem_take]; exact List.getElem?_eq_getElem _) (List.getElem?_eq_getElem hj')
    · exact ⟨[], fun a b c => absurd ⟨a, b, c⟩ hin⟩
  obtain ⟨Q, hQ⟩ := Classical.axiomOfChoice (fun i => Classical.axiomOfChoice (key i))
  obtain ⟨cl, c1, c2⟩ := h.coll
  obtain ⟨m, m1, m2⟩ := h.terms
  rw [h.valid.ready.numTerms_eq m1] at m2
  refine ⟨Q, fun i n hi h1 h2 => (hQ i n hi h1 h2).2, fun n h1 h2 => ?_, ?_⟩
  · have e := (hQ 4 n (by omega) h1 h2).1
    rw [show 4 * 2 ^ 147 = 2 ^ 149 from rfl, C53_all (h.lines n h1 h2) 5000 (h.short n h1 h2)] at e
    exact (Except.ok.inj e).symm
  · obtain ⟨r, r1, r2⟩ := searches_spec h.valid h.after m2 h.count c1 c2 (text := text) (Q := fun p n => Q (p / 2 ^ 147) n) (by
      rintro ⟨p, n⟩ hpn
      obtain ⟨⟨i, hi, rfl⟩, h1, h2⟩ := mem_rounds.mp hpn
      dsimp only
      rw [Nat.mul_div_cancel _ (by decide)]
      obtain ⟨q1, q2⟩ := hQ i n hi h1 h2
      refine ⟨q1, fun q hq => ?_⟩
      obtain ⟨j, hj, rfl⟩ := List.getElem_of_mem hq
      have hj' : j < ((ls n).take 5000).length := by rw [q2.length]; exact hj
      exact h.known i n hi h1 h2 _ (List.getElem_mem hj') _ (q2.get j hj' hj))
    refine ⟨r, r1, r2.trans ⟨fun hp i n hi h1 h2 q hq => ?_, ?_⟩⟩
    · have := hp (i * 2 ^ 147, n) (mem_rounds.mpr ⟨⟨i, hi, rfl⟩, h1, h2⟩) q
      dsimp only at this
      rw [Nat.mul_div_cancel _ (by decide)] at this
      exact this hq
    · rintro hp ⟨p, n⟩ hpn q hq
      obtain ⟨⟨i, hi, rfl⟩, h1, h2⟩ := mem_rounds.mp hpn
      dsimp only at hq
      rw [Nat.mul_div_cancel _ (by decide)] at hq
      exact hp i n hi h1 h2 q hq

/-- The test passes if the queries have no superfluous spaces, each of them is the beginning of the text of some completion but not of the first one, and none ends with a
strict beginning of the first term. Missing from the claim: the other queries. -/
theorem C75_searches_partial (hq : ∀ i n, i ≤ 4 → 1 ≤ n → n ≤ 7 → ∀ l ∈ (ls n).take 5000, ∀ q, Shortened (i * 2 ^ 147) (2 ^ 149) l q → Tidy q ∧ LastOk C (lastTerm q) ∧
      (∃ r ∈ C, q <+: joined r.2) ∧ ∀ c, IsFirstCompletion C c → ¬ q <+: joined c) :
    searches (Pre.run C) coll (fun n => some (text n)) = .ok true := by
  obtain ⟨Q, h1, _, r, h2, h3⟩ := C75_searches_exact h
  rw [h2, h3.mpr]
  intro i n hi hn1 hn2 q hm
  have hA := h1 i n hi hn1 hn2
  obtain ⟨j, hj, rfl⟩ := List.getElem_of_mem hm
  have hj' : j < ((ls n).take 5000).length := by rw [hA.length]; exact hj
  obtain ⟨ht, hl, ⟨r0, hr0, hp0⟩, hf⟩ := hq i n hi hn1 hn2 _ (List.getElem_mem hj') _ (hA.get j hj' hj)
  generalize (Q i n)[j] = q at ht hl hp0 hf
  have key : ∀ r ∈ C, q <+: joined r.2 ↔ PrefixFound C (completeTerms q) (lastTerm q) r.2 := fun r hr => by
    rw [PrefixFound_iff hl, textMatch_iff h.valid q r hr, TextMatch, squeeze_tidy ht]
  have key2 : ∀ r ∈ C, q <+: joined r.2 ↔ PrefixFound2 C (completeTerms q) (lastTerm q) r.2 := fun r hr => by
    rw [key r hr]
    exact ⟨fun hp => ⟨hp, fun hc => absurd ((key r hr).mpr hp) (hf _ hc)⟩, fun hp => hp.1⟩
  exact ⟨⟨⟨r0, hr0, (key r0 hr0).mp hp0⟩, key⟩, ⟨⟨r0, hr0, (key2 r0 hr0).mp hp0⟩, key2⟩⟩

/-- The test fails, whatever the collection, if some of the first 5000 lines of the files is the beginning of the text of the first completion and has fewer terms than it. -/
theorem C75_false_searches {n : Nat} (h1 : 1 ≤ n) (h2 : n ≤ 7) {l : Str} (hl : l ∈ (ls n).take 5000) {d : Nat} {c : List Str} (hc : C.head? = some (d, c))
    (hp : l <+: joined c) (hlen : (completeTerms l).length + 1 < c.length) : searches (Pre.run C) coll (fun n => some (text n)) = .ok false := by
  obtain ⟨Q, _, hQ, r, h3, h4⟩ := C75_searches_exact h
  rw [h3]
  cases r with
  | false => rfl
  | true =>
      have hpass := h4.mp rfl 4 n (by omega) h1 h2 l (by rw [hQ n h1 h2]; exact hl)
      obtain ⟨y, _, hy⟩ := ((hpass.2.2 (d, c) (List.mem_of_mem_head? hc)).mp hp).2 ⟨d, hc⟩
      dsimp only at hy
      rw [hy] at hlen
      simp at hlen

/-- The test fails, whatever the collection, if some of these lines is not the beginning of the text of any completion. -/
theorem C75_false_searches_none {n : Nat} (h1 : 1 ≤ n) (h2 : n ≤ 7) {l : Str} (hl : l ∈ (ls n).take 5000) (hp : ∀ r ∈ C, ¬ l <+: joined r.2) :
    searches (Pre.run C) coll (fun n => some (text n)) = .ok false := by
  obtain ⟨Q, _, hQ, r, h3, h4⟩ := C75_searches_exact h
  rw [h3]
  cases r with
  | false => rfl
  | true =>
      obtain ⟨⟨r, hr, hf⟩, hiff⟩ := (h4.mp rfl 4 n (by omega) h1 h2 l (by rw [hQ n h1 h2]; exact hl)).1
      exact absurd ((hiff r hr).mpr hf) (hp r hr)

end

/-- The test accepts everything when the file of the queries of one term is missing. -/
theorem C75_searches_missing {C : Coll} (hC : ValidColl C) (ht : ∃ n, NumTerms C n ∧ n % 17 ≠ 0) (hc : C.length % 17 ≠ 0) (coll : Str) {files : Nat → Option Str}
    (hf : files 1 = none) : searches (Pre.run C) coll files = .ok true := by
  obtain ⟨n, n1, n2⟩ := ht
  rw [hC.ready.numTerms_eq n1] at n2
  exact searches_missing hC n2 hc coll hf

/-- The test of the searches has no checks. It prints, for every query, the results that a new object returns for it; or there is a query the results of which do not fit in the
array for them. -/
theorem C75_topk {C : Coll} (hC : ValidColl C) (hw : Suits1 C) (std : StdLib) (mem : Nat → W) {ps cs : List Str} (hp : ∀ q ∈ ps, IsText q) (hc : ∀ q ∈ cs, IsText q) :
    ∃ x, Index1.build (Pre.run C) mem = .ok x ∧
      ((topk std (Pre.run C) mem ps cs = .error .oob ∧ ((∃ q ∈ ps, x.ask std ⟨false, q, 7⟩ Scratch.fresh = .error .oob) ∨
        ∃ q ∈ cs, x.ask std ⟨true, q, 7⟩ Scratch.fresh = .error .oob)) ∨
      ∃ A B, topk std (Pre.run C) mem ps cs = .ok (A, B) ∧ All2 (fun q res => Returns x.ask std ⟨false, q, 7⟩ res) ps A ∧
        All2 (fun q res => Returns x.ask std ⟨true, q, 7⟩ res) cs B) := by
  obtain ⟨x, b1, _⟩ := Index1.exists hC.ready hw mem
  have hi : IsIndex C x.ask := .type1 hw b1
  have hst : Steady x.ask std := fun a ha _ hs => C31_history hC hi std std a ha hs .fresh
  refine ⟨x, b1, ?_⟩
  unfold topk
  rw [b1, M.ok_bind]
  rcases topkLoop_spec hst false (k := 7) (by decide) ps hp .fresh with ⟨e, f⟩ | ⟨s, A, e, v, a⟩
  · change topkLoop (fun q s => x.prefixTopk std q 7 s) ps Scratch.fresh = _ at e
    rw [e, M.error_bind]
    exact .inl ⟨rfl, .inl f⟩
  · change topkLoop (fun q s => x.prefixTopk std q 7 s) ps Scratch.fresh = _ at e
    rw [e, M.ok_bind]
    dsimp only
    rcases topkLoop_spec hst true (k := 7) (by decide) cs hc v with ⟨e, f⟩ | ⟨s', B, e, _, b⟩
    · change topkLoop (fun q s => x.conjTopk std q 7 s) cs s = _ at e
      rw [e, M.error_bind]
      exact .inl ⟨rfl, .inr f⟩
    · change topkLoop (fun q s => x.conjTopk std q 7 s) cs s = _ at e
      rw [e, M.ok_bind]
      exact .inr ⟨A, B, rfl, a, b⟩

/-! ## Cases -/

theorem shortened_one {x y : Nat} {l q : Str} (h : Shortened x y l q) (hl : (lastTerm l).length = 1) : q = l := by
  have h1 := h.last.some (by intro e; rw [e] at hl; simp at hl)
  have h2 : lastTerm q = lastTerm l := h.last.beginning.eq_of_length_le (by
    rw [hl]
    exact List.length_pos_iff.mpr h1)
  obtain ⟨s, e1, e2⟩ := h.same
  rw [e2, h2, ← e1]

/-- the completions "ab b", "ab c", "b", "b ab" and "c b b", and the query "b" -/
theorem sampleInput : TestInput sampleColl
    [52, 32, 97, 98, 32, 98, 10, 50, 32, 97, 98, 32, 99, 10, 48, 32, 98, 10, 55, 32, 98, 32, 97, 98, 10, 53, 32, 99, 32, 98, 32, 98, 10]
    (fun n => if n = 1 then [98, 10] else []) (fun n => if n = 1 then [[98]] else []) where
  valid := sampleColl_valid
  after := by unfold AfterSpace; decide
  terms := sampleColl_suits.terms
  count := by decide
  coll := ⟨[[52, 32, 97, 98, 32, 98], [50, 32, 97, 98, 32, 99], [48, 32, 98], [55, 32, 98, 32, 97, 98], [53, 32, 99, 32, 98, 32, 98]],
    .next (l := [52, 32, 97, 98, 32, 98]) (by decide) (.next (l := [50, 32, 97, 98, 32, 99]) (by decide) (.next (l := [48, 32, 98]) (by decide)
      (.next (l := [55, 32, 98, 32, 97, 98]) (by decide) (.next (l := [53, 32, 99, 32, 98, 32, 98]) (by decide) .none)))),
    .cons ⟨[52], by decide, by decide⟩ (.cons ⟨[50], by decide, by decide⟩ (.cons ⟨[48], by decide, by decide⟩ (.cons ⟨[55], by decide, by decide⟩
      (.cons ⟨[53], by decide, by decide⟩ .nil))))⟩
  lines := by
    intro n _ _
    split
    · exact .next (l := [98]) (by decide) .none
    · exact .none
  short := by
    intro n _ _ l hl
    split at hl
    · simp only [List.take_succ_cons, List.take_nil, List.mem_singleton] at hl
      subst hl; decide
    · simp at hl
  known := by
    intro i n _ _ _ l hl q hq
    split at hl
    · simp only [List.take_succ_cons, List.take_nil, List.mem_singleton] at hl
      subst hl
      rw [shortened_one hq (by decide)]
      refine ⟨by decide, by rw [show completeTerms [98] = [] by decide]; simp, [98], ⟨(0, [[98]]), by decide, by decide⟩, ?_⟩
      rw [show lastTerm [98] = [98] by decide]
      exact ⟨List.prefix_refl _, fun _ => .inr rfl⟩
    · simp at hl

/-- the query "b" satisfies the conditions of `C75_searches_partial` -/
example : Tidy [98] ∧ LastOk sampleColl (lastTerm [98]) ∧ (∃ r ∈ sampleColl, [98] <+: joined r.2) ∧ ∀ c, IsFirstCompletion sampleColl c → ¬ [98] <+: joined c := by
  refine ⟨⟨by decide, fun a b h => ?_⟩, lastOk_of sampleColl_valid (by decide +kernel), ⟨(0, [[98]]), by decide, by decide⟩, ?_⟩
  · have := congrArg List.length h
    simp at this
    omega
  · rintro c ⟨d, hd⟩
    simp only [sampleColl, List.head?_cons, Option.some.injEq, Prod.mk.injEq] at hd
    rw [← hd.2]
    decide

/-- the completions "a b" and "b" -/
def abbColl : Coll := [(4, [[97], [98]]), (0, [[98]])]

theorem abbColl_valid : ValidColl abbColl :=
  ⟨by decide, by decide, by decide, by decide, by decide, by decide, by decide, by decide, by decide, by decide⟩

/-- the queries "a" and "b b" -/
theorem twoInput : TestInput abbColl [52, 32, 97, 32, 98, 10, 48, 32, 98, 10]
    (fun n => if n = 1 then [97, 10] else if n = 2 then [98, 32, 98, 10] else []) (fun n => if n = 1 then [[97]] else if n = 2 then [[98, 32, 98]] else []) where
  valid := abbColl_valid
  after := by unfold AfterSpace; decide
  terms := ⟨_, abbColl_valid.ready.numTerms, by decide +kernel⟩
  count := by decide
  coll := ⟨[[52, 32, 97, 32, 98], [48, 32, 98]], .next (l := [52, 32, 97, 32, 98]) (by decide) (.next (l := [48, 32, 98]) (by decide) .none),
    .cons ⟨[52], by decide, by decide⟩ (.cons ⟨[48], by decide, by decide⟩ .nil)⟩
  lines := by
    intro n _ _
    split
    · exact .next (l := [97]) (by decide) .none
    · split
      · exact .next (l := [98, 32, 98]) (by decide) .none
      · exact .none
  short := by
    intro n _ _ l hl
    split at hl
    · simp only [List.take_succ_cons, List.take_nil, List.mem_singleton] at hl
      subst hl; decide
    · split at hl
      · simp only [List.take_succ_cons, List.take_nil, List.mem_singleton] at hl
        subst hl; decide
      · simp at hl
  known := by
    intro i n _ _ _ l hl q hq
    split at hl
    · simp only [List.take_succ_cons, List.take_nil, List.mem_singleton] at hl
      subst hl
      rw [shortened_one hq (by decide)]
      refine ⟨by decide, by rw [show completeTerms [97] = [] by decide]; simp, [97], ⟨(4, [[97], [98]]), by decide, by decide⟩, ?_⟩
      rw [show lastTerm [97] = [97] by decide]
      exact ⟨List.prefix_refl _, fun _ => .inr rfl⟩
    · split at hl
      · simp only [List.take_succ_cons, List.take_nil, List.mem_singleton] at hl
        subst hl
        rw [shortened_one hq (by decide)]
        refine ⟨by decide, ?_, [98], ⟨(0, [[98]]), by decide, by decide⟩, ?_⟩
        · rw [show completeTerms [98, 32, 98] = [[98]] by decide]
          intro t ht
          rw [List.mem_singleton] at ht
          subst ht
          exact ⟨(0, [[98]]), by decide, by decide⟩
        · rw [show lastTerm [98, 32, 98] = [98] by decide]
          exact ⟨List.prefix_refl _, fun _ => .inr rfl⟩
      · simp at hl

/-- "a" is the beginning of the text of the first completion, "b b" is that of none -/
example : [97] ∈ (fun n => if n = 1 then [[97]] else if n = 2 then [[98, 32, 98]] else ([] : List Str)) 1 ∧ abbColl.head? = some (4, [[97], [98]]) ∧
    ([97] : Str) <+: joined [[97], [98]] ∧ (completeTerms [97]).length + 1 < [[97], [98]].length ∧
    [98, 32, 98] ∈ (fun n => if n = 1 then [[97]] else if n = 2 then [[98, 32, 98]] else ([] : List Str)) 2 ∧ ∀ r ∈ abbColl, ¬ ([98, 32, 98] : Str) <+: joined r.2 := by
  decide

example : ValidColl sampleColl ∧ Suits1 sampleColl ∧ ∀ q ∈ ([[98], [97, 98, 32, 99]] : List Str), IsText q :=
  ⟨sampleColl_valid, sampleColl_suits.toSuits1, by decide⟩

end AC.Props
