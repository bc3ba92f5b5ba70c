import Verif.Proofs.QueryFiles
/-!
# C53, C54 and C55: the queries of the benchmarks
-/
namespace AC.Props
open AC Spec

/-! ## C53 -/

theorem mapM_all2 {α β : Type} {f : α → M β} {P : α → β → Prop} : ∀ {l : List α}, (∀ a ∈ l, ∃ b, f a = .ok b ∧ P a b) →
    ∃ r, l.mapM f = .ok r ∧ r.length = l.length ∧ ∀ (i : Nat) (a : α) (b : β), l[i]? = some a → r[i]? = some b → P a b
  | [], _ => ⟨[], rfl, rfl, by simp⟩
  | a :: l, h => by
      obtain ⟨b, hb, hp⟩ := h a (by simp)
      obtain ⟨r, hr, hl, hi⟩ := mapM_all2 (f := f) (P := P) (l := l) (fun a ha => h a (List.mem_cons_of_mem _ ha))
      refine ⟨b :: r, ?_, by simp [hl], ?_⟩
      · rw [List.mapM_cons, hb, M.ok_bind, hr, M.ok_bind]; rfl
      · intro i x y hx hy
        cases i with
        | zero => simp at hx hy; subst hx; subst hy; exact hp
        | succ i => simp at hx hy; exact hi i x y hx hy

/-- **C53**: a benchmark asks one query for every line of its input, up to the number of queries asked for. A query consists of all the complete
terms of its line and the beginning of the last term: at least the given fraction `p * 2^-149` (a `float` between 0 and 1) of its characters, at
least one, and at most two more than the fraction needs. -/
theorem C53_queries {p : Nat} (hp : p ≤ 2 ^ 149) {text : Str} {ls : List Str} (h : Lines text ls) (n : Nat)
    (hl : ∀ l ∈ ls.take n, l ≠ [] ∧ l.length < 2 ^ 24 - 4) :
    ∃ qs, Bench.loadQueries p n (.ofText text) = .ok qs ∧ qs.length = min n ls.length ∧
      ∀ (i : Nat) (line q : Str), ls[i]? = some line → qs[i]? = some q → Shortened p (2 ^ 149) line q := by
  rw [Bench.loadQueries_eq h n]
  obtain ⟨qs, h1, h2, h3⟩ := mapM_all2 (f := Bench.cut p) (P := Shortened p (2 ^ 149)) (l := ls.take n)
    (fun l hm => Bench.cut_spec hp (hl l hm).1 (hl l hm).2)
  refine ⟨qs, h1, by rw [h2, List.length_take], ?_⟩
  intro i line q hi hq
  have hlt : i < qs.length := (List.getElem?_eq_some_iff.mp hq).1
  rw [h2, List.length_take] at hlt
  exact h3 i line q (by rw [List.getElem?_take_of_lt (by omega)]; exact hi) hq

/-- the whole line is asked when the fraction is 1 -/
theorem C53_all {text : Str} {ls : List Str} (h : Lines text ls) (n : Nat) (hl : ∀ l ∈ ls.take n, l ≠ [] ∧ l.length < 2 ^ 24 - 4) :
    Bench.loadQueries (2 ^ 149) n (.ofText text) = .ok (ls.take n) := by
  obtain ⟨qs, h1, h2, h3⟩ := C53_queries (Nat.le_refl _) h n hl
  rw [h1]
  congr 1
  refine List.ext_getElem (by rw [h2, List.length_take]) (fun i hi hi' => ?_)
  have hil : i < ls.length := by rw [List.length_take] at hi'; omega
  have hs := h3 i ls[i] qs[i] (List.getElem?_eq_getElem hil) (List.getElem?_eq_getElem hi)
  rw [List.getElem_take]
  have hlen : (lastTerm ls[i]).length ≤ (lastTerm qs[i]).length := Nat.le_of_mul_le_mul_right hs.last.enough (Nat.two_pow_pos _)
  have hlast : lastTerm qs[i] = lastTerm ls[i] := hs.last.beginning.eq_of_length_le hlen
  obtain ⟨s, e1, e2⟩ := hs.same
  rw [e2, hlast, ← e1]

/-- an empty line among the lines of the queries is read outside of its string, whatever the fraction -/
theorem C53_empty (p : Nat) {text : Str} {ls : List Str} (h : Lines text ls) {n : Nat} (he : [] ∈ ls.take n) :
    (Bench.loadQueries p n (.ofText text)).toOption = none := by
  rw [Bench.loadQueries_eq h n]
  revert he
  generalize ls.take n = l
  intro he
  induction l with
  | nil => simp at he
  | cons a l ih =>
      rw [List.mapM_cons]
      rcases List.mem_cons.mp he with rfl | he
      · rfl
      · cases hc : Bench.cut p a with
        | error e => rfl
        | ok q =>
            rw [M.ok_bind]
            have := ih he
            cases hm : List.mapM (Bench.cut p) l with
            | error e => rfl
            | ok r => rw [hm] at this; simp [Except.toOption] at this

/-- "new yorkk", "a", with half of the last terms: "new york" and "a" -/
example : Bench.loadQueries (2 ^ 148) 5 (.ofText [110, 101, 119, 32, 121, 111, 114, 107, 107, 10, 97]) = .ok [[110, 101, 119, 32, 121, 111, 114, 107], [97]] ∧
    Shortened (2 ^ 148) (2 ^ 149) [110, 101, 119, 32, 121, 111, 114, 107, 107] [110, 101, 119, 32, 121, 111, 114, 107] := by
  have h : Lines [110, 101, 119, 32, 121, 111, 114, 107, 107, 10, 97] [[110, 101, 119, 32, 121, 111, 114, 107, 107], [97]] :=
    .next (l := [110, 101, 119, 32, 121, 111, 114, 107, 107]) (by decide) (.last (by decide) (by decide))
  obtain ⟨qs, h1, _, h3⟩ := C53_queries (p := 2 ^ 148) (by decide) h 5 (by decide)
  have hq : Bench.loadQueries (2 ^ 148) 5 (.ofText [110, 101, 119, 32, 121, 111, 114, 107, 107, 10, 97]) =
      .ok [[110, 101, 119, 32, 121, 111, 114, 107], [97]] := by decide +kernel
  rw [hq] at h1
  injection h1 with h1
  subst h1
  exact ⟨hq, h3 0 _ _ rfl rfl⟩

/-- "a", an empty line, "b" -/
example : (Bench.loadQueries (2 ^ 149) 2 (.ofText [97, 10, 10, 98])).toOption = none ∧
    Bench.loadQueries (2 ^ 149) 1 (.ofText [97, 10, 10, 98]) = .ok [[97]] :=
  have h : Lines [97, 10, 10, 98] [[97], [], [98]] := .next (l := [97]) (by decide) (.next (l := []) (by decide) (.last (by decide) (by decide)))
  ⟨C53_empty _ h (by decide), C53_all h 1 (by decide)⟩

/-! ## C54 -/

/-- a line of the collection with its words: the text of the document id and the terms -/
structure Line (l : Str × Str × List Str) : Prop where
  words : Words l.1 (l.2.1 :: l.2.2)
  newline : 10 ∉ l.1
  return_ : 13 ∉ l.1

/-- the text of a collection -/
def textOf (L : List (Str × Str × List Str)) : Str := L.flatMap (fun l => l.1 ++ [10])

/-- a file of queries, one on a line -/
def queryFile (Q : List Str) : Str := Q.flatMap (· ++ [10])

/-- the completions of the file number `i` (from 0): those of `i + 1` terms; the last file, number 6, has all the longer ones -/
def OfLength (i : Nat) (ts : List Str) : Prop := if i < 6 then ts.length = i + 1 else 7 ≤ ts.length

instance (i : Nat) (ts : List Str) : Decidable (OfLength i ts) := by unfold OfLength; infer_instance

theorem lines_of {L : List (Str × Str × List Str)} (h : ∀ l ∈ L, Line l) : ∀ l ∈ L.map (·.1), 10 ∉ l ∧ 13 ∉ l := by
  intro w hw
  obtain ⟨l, hl, rfl⟩ := List.mem_map.mp hw
  exact ⟨(h l hl).newline, (h l hl).return_⟩

/-- **C54**: the queries are chosen among the completions: the file for `i` terms has `n` of the completions of `i` terms, or all of them when there
are fewer, each at most as often as it occurs in the collection. It does not matter how the strings are shuffled. -/
theorem C54_partition_partial {L : List (Str × Str × List Str)} (h : ∀ l ∈ L, Line l) (hne : ∀ l ∈ L, l.2.2 ≠ [])
    {shuffle : Nat → List Str → List Str} (hs : ∀ i l, (shuffle i l).Perm l) (n : Nat) :
    (Pre.partition shuffle n (textOf L)).length = 7 ∧
    ∀ i, i < 7 → ∃ Q R, (Pre.partition shuffle n (textOf L))[i]? = some (queryFile Q) ∧
      (Q ++ R).Perm ((L.filter (fun l => OfLength i l.2.2)).map (fun l => joined l.2.2)) ∧
      Q.length = min n (L.filter (fun l => OfLength i l.2.2)).length := by
  refine ⟨Pre.partition_length, fun i hi => ?_⟩
  have hg := Pre.partition_get (shuffle := shuffle) (n := n) (lines_of h) hi
  rw [List.flatMap_map] at hg
  have e : ((L.map (·.1)).filter (fun l => Pre.shard (Pre.split l).length == i)).map Pre.queryOf =
      (L.filter (fun l => OfLength i l.2.2)).map (fun l => joined l.2.2) := by
    rw [List.filter_map, List.map_map]
    have e1 : L.filter ((fun l => Pre.shard (Pre.split l).length == i) ∘ fun x => x.1) = L.filter (fun l => OfLength i l.2.2) := by
      refine List.filter_congr (fun l hl => ?_)
      dsimp only [Function.comp]
      rw [Pre.shard_words (h l hl).words (hne l hl)]
      have : 0 < l.2.2.length := List.length_pos_iff.mpr (hne l hl)
      rw [Bool.eq_iff_iff, beq_iff_eq, decide_eq_true_iff]
      unfold OfLength
      split <;> omega
    rw [e1]
    refine List.map_congr_left (fun l hl => ?_)
    exact Pre.queryOf_words (h l (List.mem_filter.mp hl).1).words
  rw [e] at hg
  have hperm := hs i ((L.filter (fun l => OfLength i l.2.2)).map (fun l => joined l.2.2))
  refine ⟨_, (shuffle i ((L.filter (fun l => OfLength i l.2.2)).map (fun l => joined l.2.2))).drop n, hg, ?_, ?_⟩
  · rw [List.take_append_drop]; exact hperm
  · rw [List.length_take, hperm.length_eq, List.length_map]

/-- Lines without terms are not left out, and are not put in a file of their own: a line that has a document id only becomes an empty query in the
file for six terms, and a blank line one in the file for five terms. -/
theorem C54_false {ls : List Str} (hl : ∀ l ∈ ls, 10 ∉ l ∧ 13 ∉ l) {shuffle : Nat → List Str → List Str} (hs : ∀ i l, (shuffle i l).Perm l)
    {n : Nat} (hn : ls.length ≤ n) :
    (∀ l ∈ ls, ∀ x, Words l [x] → ∃ Q, (Pre.partition shuffle n (queryFile ls))[5]? = some (queryFile Q) ∧ [] ∈ Q) ∧
    (∀ l ∈ ls, Words l [] → ∃ Q, (Pre.partition shuffle n (queryFile ls))[4]? = some (queryFile Q) ∧ [] ∈ Q) := by
  have key : ∀ i, i < 7 → ∀ l ∈ ls, Pre.shard (Pre.split l).length = i → Pre.queryOf l = [] →
      ∃ Q, (Pre.partition shuffle n (queryFile ls))[i]? = some (queryFile Q) ∧ [] ∈ Q := by
    intro i hi l hm hsh hq
    refine ⟨_, Pre.partition_get hl hi, ?_⟩
    have hperm := hs i ((ls.filter (fun l => Pre.shard (Pre.split l).length == i)).map Pre.queryOf)
    rw [List.take_of_length_le, hperm.mem_iff, List.mem_map]
    · exact ⟨l, List.mem_filter.mpr ⟨hm, by simpa using hsh⟩, hq⟩
    · rw [hperm.length_eq, List.length_map]
      exact Nat.le_trans (List.length_filter_le _ _) hn
  constructor
  · intro l hm x hw
    exact key 5 (by decide) l hm (by rw [Pre.split_of_words hw]; rfl) (by unfold Pre.queryOf; rw [Pre.split_of_words hw]; rfl)
  · intro l hm hw
    exact key 4 (by decide) l hm (by rw [Pre.split_of_words hw]; rfl) (by unfold Pre.queryOf; rw [Pre.split_of_words hw]; rfl)

/-- lines "7 b ab", "4 b", "5 ab", with the lists reversed -/
def queryLines : List (Str × Str × List Str) :=
  [([55, 32, 98, 32, 32, 97, 98], [55], [[98], [97, 98]]), ([52, 32, 98], [52], [[98]]), ([53, 32, 97, 98], [53], [[97, 98]])]

theorem queryLines_line : ∀ l ∈ queryLines, Line l := by
  intro l hl
  simp only [queryLines, List.mem_cons, List.not_mem_nil, or_false] at hl
  rcases hl with rfl | rfl | rfl
  · exact ⟨Pre.split_iff.mp (by decide +kernel), by decide, by decide⟩
  · exact ⟨Pre.split_iff.mp (by decide +kernel), by decide, by decide⟩
  · exact ⟨Pre.split_iff.mp (by decide +kernel), by decide, by decide⟩

/-- one query of one term is chosen of two, and the one of two terms -/
example : (∃ Q R, (Pre.partition (fun _ l => l.reverse) 1 (textOf queryLines))[0]? = some (queryFile Q) ∧ (Q ++ R).Perm [[98], [97, 98]] ∧ Q.length = 1) ∧
    (Pre.partition (fun _ l => l.reverse) 1 (textOf queryLines)) = [[97, 98, 10], [98, 32, 97, 98, 10], [], [], [], [], []] :=
  ⟨(C54_partition_partial queryLines_line (by decide) (shuffle := fun _ l => l.reverse) (fun _ l => List.reverse_perm l) 1).2 0 (by decide), by decide +kernel⟩

/-- lines "7 b" and "12": the latter becomes an empty query of six terms, with which a benchmark reads outside of a string -/
example : ∃ f, (Pre.partition (fun _ l => l) 9 (queryFile [[55, 32, 98], [49, 50]]))[5]? = some f ∧ (Bench.loadQueries (2 ^ 149) 9 (.ofText f)).toOption = none := by
  obtain ⟨Q, h1, h2⟩ := (C54_false (ls := [[55, 32, 98], [49, 50]]) (by decide) (shuffle := fun _ l => l) (fun _ l => .refl l) (n := 9) (by decide)).1
    [49, 50] (by decide) [49, 50] (Pre.split_iff.mp (by decide +kernel))
  exact ⟨[10], by decide +kernel, C53_empty _ (.next (l := []) (by decide) .none) (by decide)⟩

/-! ## C55 -/

/-- **C55**: filtering removes exactly the lines of the completions that are in the files of queries; the other lines are kept, unchanged and in their
order. (The bytes 28 to 31 separate words for Python 3, but not for Python 2, with which this script runs.) -/
theorem C55_filter {L : List (Str × Str × List Str)} (h : ∀ l ∈ L, Line l) (hb : ∀ l ∈ L, ∀ b ∈ l.1, b < 28 ∨ 31 < b)
    {Qs : List (List Str)} (hq : ∀ Q ∈ Qs, ∀ q ∈ Q, 10 ∉ q) :
    ∃ K, Pre.filterDataset (Qs.map queryFile) (textOf L) = textOf K ∧ K.Sublist L ∧
      ∀ l, l ∈ K ↔ l ∈ L ∧ ∀ Q ∈ Qs, joined l.2.2 ∉ Q := by
  refine ⟨_, Pre.filterDataset_text (fun l hl => ⟨(h l hl).words, (h l hl).newline, hb l hl⟩) Qs hq, List.filter_sublist, ?_⟩
  intro l
  rw [List.mem_filter]
  simp only [Bool.not_eq_true', List.contains_eq_mem, List.mem_flatten, decide_eq_false_iff_not, not_exists, not_and]

/-- **C55**, together with C54: after the queries have been chosen and the collection filtered by them, no line of the collection has the text of a query; only
lines with such texts are missing. -/
theorem C55_unseen {L : List (Str × Str × List Str)} (h : ∀ l ∈ L, Line l) (hb : ∀ l ∈ L, ∀ b ∈ l.1, b < 28 ∨ 31 < b) (hne : ∀ l ∈ L, l.2.2 ≠ [])
    {shuffle : Nat → List Str → List Str} (hs : ∀ i l, (shuffle i l).Perm l) (n : Nat) :
    ∃ (Qs : List (List Str)) (K : List (Str × Str × List Str)), Pre.partition shuffle n (textOf L) = Qs.map queryFile ∧ Pre.filterDataset (Pre.partition shuffle n (textOf L)) (textOf L) = textOf K ∧
      (∀ Q ∈ Qs, Q.length ≤ n) ∧ K.Sublist L ∧ ∀ l, l ∈ K ↔ l ∈ L ∧ ∀ Q ∈ Qs, joined l.2.2 ∉ Q := by
  obtain ⟨h1, h2⟩ := C54_partition_partial h hne hs n
  have : ∃ Qs : List (List Str), Pre.partition shuffle n (textOf L) = Qs.map queryFile ∧ ∀ Q ∈ Qs, Q.length ≤ n ∧ ∀ q ∈ Q, ∃ l ∈ L, q = joined l.2.2 := by
    have hex : ∀ f ∈ Pre.partition shuffle n (textOf L), ∃ Q, f = queryFile Q ∧ Q.length ≤ n ∧ ∀ q ∈ Q, ∃ l ∈ L, q = joined l.2.2 := by
      intro f hf
      obtain ⟨i, hi, e⟩ := List.getElem_of_mem hf
      obtain ⟨Q, R, g1, g2, g3⟩ := h2 i (by omega)
      rw [List.getElem?_eq_getElem hi, e] at g1
      injection g1 with g1
      refine ⟨Q, g1, by omega, fun q hq => ?_⟩
      have := g2.mem_iff.mp (List.mem_append_left R hq)
      obtain ⟨l, hl, e⟩ := List.mem_map.mp this
      exact ⟨l, (List.mem_filter.mp hl).1, e.symm⟩
    revert hex
    generalize Pre.partition shuffle n (textOf L) = fs
    intro hex
    induction fs with
    | nil => exact ⟨[], rfl, by simp⟩
    | cons f fs ih =>
        obtain ⟨Qs, e, hQ⟩ := ih (fun f hf => hex f (List.mem_cons_of_mem _ hf))
        obtain ⟨Q, e1, e2⟩ := hex f (by simp)
        refine ⟨Q :: Qs, by rw [List.map_cons, ← e, ← e1], ?_⟩
        intro Q' hQ'
        rcases List.mem_cons.mp hQ' with rfl | hQ'
        · exact e2
        · exact hQ Q' hQ'
  obtain ⟨Qs, e, hQ⟩ := this
  obtain ⟨K, k1, k2, k3⟩ := C55_filter h hb (Qs := Qs) (by
    intro Q hQ' q hq
    obtain ⟨l, hl, rfl⟩ := (hQ Q hQ').2 q hq
    exact (h l hl).words.joined_newline (h l hl).newline (by decide))
  exact ⟨Qs, K, e, by rw [e]; exact k1, fun Q hQ' => (hQ Q hQ').1, k2, k3⟩

/-- with one query of every length, the line "4 b" remains -/
example : Pre.filterDataset (Pre.partition (fun _ l => l.reverse) 1 (textOf queryLines)) (textOf queryLines) = [52, 32, 98, 10] ∧
    ∃ (Qs : List (List Str)) (K : List (Str × Str × List Str)), Pre.partition (fun _ l => l.reverse) 1 (textOf queryLines) = Qs.map queryFile ∧
      Pre.filterDataset (Pre.partition (fun _ l => l.reverse) 1 (textOf queryLines)) (textOf queryLines) = textOf K ∧
      ∀ l, l ∈ K ↔ l ∈ queryLines ∧ ∀ Q ∈ Qs, joined l.2.2 ∉ Q := by
  refine ⟨by decide +kernel, ?_⟩
  obtain ⟨Qs, K, h1, h2, _, _, h5⟩ := C55_unseen queryLines_line (by decide) (by decide) (shuffle := fun _ l => l.reverse) (fun _ l => List.reverse_perm l) 1
  exact ⟨Qs, K, h1, h2, h5⟩

end AC.Props
