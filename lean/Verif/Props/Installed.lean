import Verif.Proofs.Installed
import Verif.Props.TestsSearch
/-!
# C78: the test of `locate_prefix` on the files that the scripts write
-/
namespace AC.Props
open AC Spec

/-- The collection that is installed, with the lines of its text and their words. The characters of its terms come after the space, and its first term is one
character. -/
structure InstallInput (C : Coll) (L : List (Str × Str × List Str)) : Prop where
  valid : ValidColl C
  after : ∀ r ∈ C, ∀ t ∈ r.2, AfterSpace t
  terms : ∃ n, NumTerms C n ∧ n % 17 ≠ 0
  count : C.length % 17 ≠ 0
  lines : ∀ l ∈ L, Line l
  each : All2 (fun l r => LineOf l.1 r ∧ l.2.2 = r.2) L C
  first : ∀ x, IsFirstTerm C x → x.length = 1

/-- the texts of the completions of `k` terms -/
def textsOf (C : Coll) (k : Nat) : List Str := (C.filter (fun r => r.2.length = k)).map (fun r => joined r.2)

theorem texts_eq {C : Coll} {L : List (Str × Str × List Str)} (h : All2 (fun l r => LineOf l.1 r ∧ l.2.2 = r.2) L C) {i : Nat} (hi : i < 6) :
    (L.filter (fun l => OfLength i l.2.2)).map (fun l => joined l.2.2) = textsOf C (i + 1) := by
  induction h with
  | nil => rfl
  | @cons l r L C hl _ ih =>
      unfold textsOf at ih ⊢
      have e : OfLength i l.2.2 ↔ r.2.length = i + 1 := by unfold OfLength; rw [if_pos hi, hl.2]
      rw [List.filter_cons, List.filter_cons]
      by_cases hr : r.2.length = i + 1
      · rw [if_pos (by simpa using e.mpr hr), if_pos (by simpa using hr), List.map_cons, List.map_cons, ih, hl.2]
      · rw [if_neg (by simpa using fun h => hr (e.mp h)), if_neg (by simpa using hr), ih]

section
variable {C : Coll} {L : List (Str × Str × List Str)} (h : InstallInput C L) {shuffle : Nat → List Str → List Str} (hs : ∀ i l, (shuffle i l).Perm l) (n : Nat)
include h hs

/-- What the test does once the scripts have been run: `S k` are the completions of `k` terms that are chosen, for `k` up to 6, and `Q k` are their first two characters at
most of the last term. There are no other queries: none of seven terms, and none with more of the last term. The test passes when the first completion, if its text begins with
one of the queries, has no more terms than this query, and ends with the smallest term that completes it. -/
theorem C78_exact : ∃ S Q : Nat → List Str,
    (∀ k, 1 ≤ k → k ≤ 6 → (∃ R, (S k ++ R).Perm (textsOf C k)) ∧ (S k).length = min n (textsOf C k).length ∧
      All2 (fun s q => Shortened 0 1 s q ∧ (lastTerm q).length ≤ 2) ((S k).take 5000) (Q k)) ∧
    ∃ r, Tests.installed (Pre.run C) shuffle n (textOf L) = .ok r ∧ (r = true ↔ ∀ k, 1 ≤ k → k ≤ 6 → ∀ q ∈ Q k, ∀ c, IsFirstCompletion C c → q <+: joined c →
      ∃ x, FirstReached C (lastTerm q) x ∧ c = completeTerms q ++ [x]) := by
  have hne : ∀ l ∈ L, l.2.2 ≠ [] := fun l hl => by
    obtain ⟨j, hj, rfl⟩ := List.getElem_of_mem hl
    have hj' : j < C.length := by rw [← h.each.length]; exact hj
    rw [(h.each.get j hj hj').2]
    exact h.valid.nonempty _ (List.getElem_mem hj')
  obtain ⟨p1, p2⟩ := C54_partition_partial h.lines hne hs n
  have key : ∀ k, ∃ SQ : List Str × List Str, 1 ≤ k → k ≤ 6 → (∃ R, (SQ.1 ++ R).Perm (textsOf C k)) ∧ SQ.1.length = min n (textsOf C k).length ∧
      (Pre.partition shuffle n (textOf L))[k - 1]? = some (queryFile SQ.1) ∧
      Bench.loadQueries 0 5000 (.ofText (queryFile SQ.1)) = .ok SQ.2 ∧ All2 (Shortened 0 (2 ^ 149)) (SQ.1.take 5000) SQ.2 := by
    intro k
    by_cases hk : 1 ≤ k ∧ k ≤ 6
    · obtain ⟨S, R, g1, g2, g3⟩ := p2 (k - 1) (by omega)
      rw [texts_eq h.each (by omega), show k - 1 + 1 = k by omega] at g2
      have g4 := congrArg List.length (texts_eq h.each (i := k - 1) (by omega))
      rw [List.length_map, show k - 1 + 1 = k by omega] at g4
      have hS : ∀ s ∈ S, 10 ∉ s ∧ s ≠ [] ∧ s.length < 2 ^ 24 - 4 := by
        intro s hs'
        obtain ⟨r, hr, rfl⟩ := List.mem_map.mp (g2.mem_iff.mp (List.mem_append_left R hs'))
        have hrC := (List.mem_filter.mp hr).1
        obtain ⟨j, hj, rfl⟩ := List.getElem_of_mem hrC
        have hj' : j < L.length := by rw [h.each.length]; exact hj
        have hl := h.lines _ (List.getElem_mem hj')
        have := h.valid.text_le _ hrC
        refine ⟨?_, ?_, by omega⟩
        · rw [← (h.each.get j hj' hj).2]
          exact hl.words.joined_newline hl.newline (by decide)
        · have h1 := h.valid.nonempty _ hrC
          have h2 := h.valid.words _ hrC
          generalize C[j].2 = c at h1 h2
          intro e
          have h3 := joined_length c
          rw [e] at h3
          cases c with
          | nil => exact h1 rfl
          | cons t c =>
              have := List.length_pos_iff.mpr (h2 t (by simp)).1
              simp at h3
              omega
      have hl := lines_queryFile (Q := S) (fun q hq => (hS q hq).1)
      obtain ⟨qs, q1, q2, q3⟩ := C53_queries (p := 0) (by omega) hl 5000 (fun l hm => (hS l (List.take_subset _ _ hm)).2)
      refine ⟨(S, qs), fun _ _ => ⟨⟨R, g2⟩, by rw [← g4]; exact g3, g1, q1, .of_get (by rw [q2, List.length_take]) (fun j hj hj' => ?_)⟩⟩
      rw [List.length_take] at hj
      exact q3 j _ _ (by rw [List.getElem_take]; exact List.getElem?_eq_getElem _) (List.getElem?_eq_getElem hj')
    · exact ⟨([], []), fun a b => absurd ⟨a, b⟩ hk⟩
  obtain ⟨SQ, hSQ⟩ := Classical.axiomOfChoice key
  have hmem : ∀ k, 1 ≤ k → k ≤ 6 → ∀ q ∈ (SQ k).2, ∃ r ∈ C, Shortened 0 (2 ^ 149) (joined r.2) q := by
    intro k hk1 hk2 q hq
    obtain ⟨⟨R, hR⟩, _, _, _, ha⟩ := hSQ k hk1 hk2
    obtain ⟨j, hj, rfl⟩ := List.getElem_of_mem hq
    have hj' : j < ((SQ k).1.take 5000).length := by rw [ha.length]; exact hj
    obtain ⟨r, hr, e⟩ := List.mem_map.mp (hR.mem_iff.mp (List.mem_append_left R (List.take_subset _ _ (List.getElem_mem hj'))))
    refine ⟨r, (List.mem_filter.mp hr).1, ?_⟩
    rw [e]
    exact ha.get j hj' hj
  obtain ⟨m, m1, m2⟩ := h.terms
  rw [h.valid.ready.numTerms_eq m1] at m2
  refine ⟨fun k => (SQ k).1, fun k => (SQ k).2, fun k hk1 hk2 => ?_, ?_⟩
  · obtain ⟨a1, a2, _, _, a3⟩ := hSQ k hk1 hk2
    refine ⟨a1, a2, .of_get a3.length (fun j hj hj' => ?_)⟩
    have hsh := a3.get j hj hj'
    refine ⟨⟨hsh.same, hsh.complete, hsh.last.beginning, hsh.last.some, by simp, fun i _ => ?_⟩, ?_⟩
    · exact Nat.le_trans (hsh.last.notMore 0 (by simp)) (by omega)
    · exact hsh.last.notMore 0 (by simp)
  · obtain ⟨d, T, D, R, t2, i2, e⟩ := Tests.searches_built h.valid m2 h.count (textOf L) (Tests.openQueries (Pre.queryFiles shuffle n (textOf L)))
    have hc : All2 LineOf (L.map (·.1)) C := .of_get (by rw [List.length_map]; exact h.each.length) (fun j hj hj' => by
      rw [List.length_map] at hj
      rw [List.getElem_map]
      exact (h.each.get j hj hj').1)
    rw [Tests.strings_of (lines_textOf h.lines) hc,
      show Tests.rounds = [(0, 1), (0, 2), (0, 3), (0, 4), (0, 5), (0, 6)] ++ (0, 7) :: Tests.rounds.drop 7 from rfl,
      Tests.locateRounds_stop (show Tests.openQueries (Pre.queryFiles shuffle n (textOf L)) 7 = none from Tests.open_none p1)] at e
    obtain ⟨r, r1, r2⟩ := Tests.locateRounds_spec h.valid.ready h.valid h.after R t2 (by decide) i2 (text := fun k => queryFile (SQ k).1)
      (Q := fun _ k => (SQ k).2) (files := Tests.openQueries (Pre.queryFiles shuffle n (textOf L)))
      [(0, 1), (0, 2), (0, 3), (0, 4), (0, 5), (0, 6)] (by
        intro pn hpn
        obtain ⟨h1, h2⟩ : 1 ≤ pn.2 ∧ pn.2 ≤ 6 := by revert pn; decide
        exact (Tests.open_some p1 h1 h2).trans (hSQ pn.2 h1 h2).2.2.1) (by
        intro pn hpn
        obtain ⟨h0, h1, h2⟩ : pn.1 = 0 ∧ 1 ≤ pn.2 ∧ pn.2 ≤ 6 := by revert pn; decide
        refine ⟨by rw [h0]; exact (hSQ pn.2 h1 h2).2.2.2.1, fun q hq => ?_⟩
        obtain ⟨r, hr, hsh⟩ := hmem pn.2 h1 h2 q hq
        exact query_looksUp h.valid h.first hr hsh)
      (List.replicate FcDict.bufSize 0) List.length_replicate (List.replicate IntDict.bufSize 0) List.length_replicate
    refine ⟨r, by unfold Tests.installed; rw [e]; exact r1, r2.trans ⟨fun hp k hk1 hk2 q hq => ?_, ?_⟩⟩
    · obtain ⟨r', hr', hsh⟩ := hmem k hk1 hk2 q hq
      refine (query_passes h.valid h.first hr' hsh).mp (hp (0, k) ?_ q hq)
      rcases (by omega : k = 1 ∨ k = 2 ∨ k = 3 ∨ k = 4 ∨ k = 5 ∨ k = 6) with rfl | rfl | rfl | rfl | rfl | rfl <;> decide
    · intro hp pn hpn q hq
      obtain ⟨h1, h2⟩ : 1 ≤ pn.2 ∧ pn.2 ≤ 6 := by clear hq; revert pn; decide
      obtain ⟨r', hr', hsh⟩ := hmem pn.2 h1 h2 q hq
      exact (query_passes h.valid h.first hr' hsh).mpr (hp pn.2 h1 h2 q hq)

/-- The test passes if the first completion is one character. Missing from the claim: the other collections, the queries of seven terms or more, and those with
more of the last term. -/
theorem C78_partial {d c : Nat} (hc : C.head? = some (d, [[c]])) : Tests.installed (Pre.run C) shuffle n (textOf L) = .ok true := by
  obtain ⟨S, Q, h1, r, h2, h3⟩ := C78_exact h hs n
  rw [h2, h3.mpr]
  rintro k hk1 hk2 q hq c' ⟨d', hc'⟩ hp
  rw [hc] at hc'
  injection hc' with hc'
  injection hc' with _ hc'
  subst hc'
  obtain ⟨⟨R, hR⟩, _, ha⟩ := h1 k hk1 hk2
  obtain ⟨j, hj, rfl⟩ := List.getElem_of_mem hq
  have hj' : j < ((S k).take 5000).length := by rw [ha.length]; exact hj
  obtain ⟨r, hr, e⟩ := List.mem_map.mp (hR.mem_iff.mp (List.mem_append_left R (List.take_subset _ _ (List.getElem_mem hj'))))
  have hrC := (List.mem_filter.mp hr).1
  have hsh := (ha.get j hj' hj).1
  rw [← e] at hsh
  generalize (Q k)[j] = q at hp hsh
  obtain ⟨t, e1, e2, e3, e4⟩ := query_of h.valid hrC hsh
  have hne : q ≠ [] := by
    rintro rfl
    rw [show completeTerms [] = [] from rfl] at e1
    have ht := h.valid.words _ hrC t (by rw [e1]; simp)
    refine hsh.last.some ?_ rfl
    rw [e1, List.nil_append, show joined [t] = t from rfl, lastTerm_word ht.2.2]
    exact ht.1
  have hq1 : q = [c] := hp.eq_of_length_le (List.length_pos_iff.mpr hne)
  subst hq1
  have hm : (d, [[c]]) ∈ C := List.mem_of_mem_head? hc
  have hcs : (32 : Nat) ∉ [c] := (h.valid.words _ hm [c] (by simp)).2.2
  rw [lastTerm_word hcs, completeTerms_word hcs]
  refine ⟨[c], ⟨⟨_, hm, by simp⟩, ⟨List.prefix_refl _, fun _ => .inr rfl⟩, ?_⟩, rfl⟩
  rintro y _ ⟨⟨s, rfl⟩, _⟩
  exact FcDict.prefix_not_lt (List.prefix_append _ _)

/-- The test fails, whatever the collection, if there is a completion of at most 6 terms, the first completion has more terms than this one, begins with
the terms before its last one, and goes on with the first two characters of the last one. -/
theorem C78_false (hn : C.length ≤ n) (hC : C.length ≤ 5000) {d : Nat} {P : List Str} {x : Str} {rest : List Str} (hc : C.head? = some (d, P ++ x :: rest))
    (hr : rest ≠ []) {d' : Nat} {t : Str} (ht : (d', P ++ [t]) ∈ C) (hP : P.length < 6) (hx : t.take 2 <+: x) :
    Tests.installed (Pre.run C) shuffle n (textOf L) = .ok false := by
  obtain ⟨S, Q, h1, r, h2, h3⟩ := C78_exact h hs n
  rw [h2]
  cases r with
  | false => rfl
  | true =>
      exfalso
      obtain ⟨⟨R, hR⟩, hl, ha⟩ := h1 (P.length + 1) (by omega) (by omega)
      have hle : (textsOf C (P.length + 1)).length ≤ C.length := by
        unfold textsOf; rw [List.length_map]; exact List.length_filter_le _ _
      have hR0 : R = [] := by
        have := hR.length_eq
        rw [List.length_append, hl, Nat.min_eq_right (by omega)] at this
        exact List.length_eq_zero_iff.mp (by omega)
      rw [hR0, List.append_nil] at hR
      have hm : joined (P ++ [t]) ∈ (S (P.length + 1)).take 5000 := by
        rw [List.take_of_length_le (by rw [hR.length_eq]; omega), hR.mem_iff]
        exact List.mem_map.mpr ⟨_, List.mem_filter.mpr ⟨ht, by simp⟩, rfl⟩
      obtain ⟨j, hj, e⟩ := List.getElem_of_mem hm
      have hj' : j < (Q (P.length + 1)).length := by rw [← ha.length]; exact hj
      obtain ⟨hsh, hlen⟩ := ha.get j hj hj'
      rw [e] at hsh
      have hq := h3.mp rfl _ (by omega) (by omega) _ (List.getElem_mem hj')
      generalize (Q (P.length + 1))[j] = q at hsh hlen hq
      obtain ⟨t', e1, e2, e3, _⟩ := query_of h.valid ht hsh
      obtain ⟨e4, e5⟩ := List.append_inj' e1 rfl
      injection e5 with e5
      subst e5
      have hm0 := List.mem_of_mem_head? hc
      have hpm : PrefixMatch (completeTerms q) (lastTerm q) (P ++ x :: rest) :=
        ⟨x, (List.prefix_take_iff.mpr ⟨e2, hlen⟩).trans hx, by rw [← e4]; exact ⟨rest, by simp⟩⟩
      rw [textMatch_iff h.valid q _ hm0, TextMatch, e3] at hpm
      obtain ⟨y, _, ey⟩ := hq _ ⟨d, hc⟩ hpm
      rw [← e4] at ey
      have := congrArg List.length ey
      simp at this
      exact hr this

/-- The test accepts every collection whose completions all have seven terms or more: it checks nothing. -/
theorem C78_false_long (hl : ∀ r ∈ C, 7 ≤ r.2.length) : Tests.installed (Pre.run C) shuffle n (textOf L) = .ok true := by
  obtain ⟨S, Q, h1, r, h2, h3⟩ := C78_exact h hs n
  rw [h2, h3.mpr]
  intro k hk1 hk2 q hq
  exfalso
  obtain ⟨⟨R, hR⟩, _, ha⟩ := h1 k hk1 hk2
  have : textsOf C k = [] := by
    unfold textsOf
    rw [List.filter_eq_nil_iff.mpr]
    · rfl
    · intro r hr
      have := hl r hr
      simp only [decide_eq_true_eq]
      omega
  rw [this] at hR
  have hS := (List.append_eq_nil_iff.mp hR.eq_nil).1
  rw [hS] at ha
  have := ha.length
  rw [List.take_nil, List.length_nil] at this
  rw [List.length_eq_zero_iff.mp this.symm] at hq
  simp at hq

end

/-! ## Cases -/

/-- the completions "a" and "ab b" -/
def aColl : Coll := [(0, [[97]]), (4, [[97, 98], [98]])]

def aLines : List (Str × Str × List Str) := [([53, 32, 97], [53], [[97]]), ([51, 32, 97, 98, 32, 98], [51], [[97, 98], [98]])]

theorem aInput : InstallInput aColl aLines where
  valid := ⟨by decide, by decide, by decide, by decide, by decide, by decide, by decide, by decide, by decide, by decide⟩
  after := by unfold AfterSpace; decide
  terms := ⟨_, (ValidColl.ready (C := aColl) ⟨by decide, by decide, by decide, by decide, by decide, by decide, by decide, by decide, by decide, by decide⟩).numTerms, by decide +kernel⟩
  count := by decide
  lines := by
    intro l hl
    simp only [aLines, List.mem_cons, List.not_mem_nil, or_false] at hl
    rcases hl with rfl | rfl <;> exact ⟨Pre.split_iff.mp (by decide +kernel), by decide, by decide⟩
  each := .cons ⟨⟨[53], by decide, by decide⟩, rfl⟩ (.cons ⟨⟨[51], by decide, by decide⟩, rfl⟩ .nil)
  first := by
    rintro x ⟨⟨r, hr, hx⟩, h⟩
    have h1 := h [97] ⟨(0, [[97]]), by decide, by decide⟩
    clear h
    revert x
    revert r
    decide

example : Tests.installed (Pre.run aColl) (fun _ l => l.reverse) 300 (textOf aLines) = .ok true :=
  C78_partial aInput (fun _ l => List.reverse_perm l) 300 (d := 0) (c := 97) rfl

/-- the completions "abc d", "abd" and "b a" -/
def abcColl : Coll := [(4, [[97, 98, 99], [100]]), (0, [[97, 98, 100]]), (2, [[98], [97]])]

def abcLines : List (Str × Str × List Str) :=
  [([52, 32, 97, 98, 99, 32, 100], [52], [[97, 98, 99], [100]]), ([57, 32, 97, 98, 100], [57], [[97, 98, 100]]), ([55, 32, 98, 32, 97], [55], [[98], [97]])]

theorem abcColl_valid : ValidColl abcColl :=
  ⟨by decide, by decide, by decide, by decide, by decide, by decide, by decide, by decide, by decide, by decide⟩

theorem abcInput : InstallInput abcColl abcLines where
  valid := abcColl_valid
  after := by unfold AfterSpace; decide
  terms := ⟨_, abcColl_valid.ready.numTerms, by decide +kernel⟩
  count := by decide
  lines := by
    intro l hl
    simp only [abcLines, List.mem_cons, List.not_mem_nil, or_false] at hl
    rcases hl with rfl | rfl | rfl <;> exact ⟨Pre.split_iff.mp (by decide +kernel), by decide, by decide⟩
  each := .cons ⟨⟨[52], by decide, by decide⟩, rfl⟩ (.cons ⟨⟨[57], by decide, by decide⟩, rfl⟩ (.cons ⟨⟨[55], by decide, by decide⟩, rfl⟩ .nil))
  first := by
    rintro x ⟨⟨r, hr, hx⟩, h⟩
    have h1 := h [97] ⟨(2, [[98], [97]]), by decide, by decide⟩
    clear h
    revert x
    revert r
    decide

/-- the query "ab", made of "abd", is the beginning of the first completion -/
example : Tests.installed (Pre.run abcColl) (fun _ l => l) 300 (textOf abcLines) = .ok false :=
  C78_false abcInput (fun _ l => .refl l) 300 (by decide) (by decide) (d := 4) (P := []) (x := [97, 98, 99]) (rest := [[100]]) rfl (by decide) (d' := 0) (t := [97, 98, 100])
    (by decide) (by decide) (by decide)

/-- the completion "a b b b b b b b" -/
def sevenColl : Coll := [(0, [[97], [98], [98], [98], [98], [98], [98], [98]])]

def sevenLines : List (Str × Str × List Str) :=
  [([53, 32, 97, 32, 98, 32, 98, 32, 98, 32, 98, 32, 98, 32, 98, 32, 98], [53], [[97], [98], [98], [98], [98], [98], [98], [98]])]

theorem sevenColl_valid : ValidColl sevenColl :=
  ⟨by decide, by decide, by decide, by decide, by decide, by decide, by decide, by decide, by decide, by decide⟩

theorem sevenInput : InstallInput sevenColl sevenLines where
  valid := sevenColl_valid
  after := by unfold AfterSpace; decide
  terms := ⟨_, sevenColl_valid.ready.numTerms, by decide +kernel⟩
  count := by decide
  lines := by
    intro l hl
    simp only [sevenLines, List.mem_cons, List.not_mem_nil, or_false] at hl
    rcases hl with rfl; exact ⟨Pre.split_iff.mp (by decide +kernel), by decide, by decide⟩
  each := .cons ⟨⟨[53], by decide, by decide⟩, rfl⟩ .nil
  first := by
    rintro x ⟨⟨r, hr, hx⟩, h⟩
    clear h
    revert x
    revert r
    decide

example : Tests.installed (Pre.run sevenColl) (fun _ l => l) 300 (textOf sevenLines) = .ok true :=
  C78_false_long sevenInput (fun _ l => .refl l) 300 (by decide)

end AC.Props
