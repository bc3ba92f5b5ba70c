import Verif.Model.Deploy
import Verif.Proofs.Nodes
import Verif.Props.Type4
/-!
# C48, C49 and C50: the text files between the scripts and the constructors
-/
namespace AC.Props
open AC Spec

/-! ## C48 -/

/-- The scripts read the input as one expects: a line for a completion, with its document id and its terms between blanks. Every layout is
allowed; `l.1` is the line, `l.2.1` the numeral and `l.2.2` the terms. -/
theorem C48_lines {L : List (Str × Str × List Str)}
    (h : ∀ l ∈ L, Words l.1 (l.2.1 :: l.2.2) ∧ l.2.1.all isDigit = true ∧ 10 ∉ l.1 ∧ 13 ∉ l.1) :
    Pre.parse (L.flatMap (fun l => l.1 ++ [10])) = some (L.map (fun l => (l.2.1, num l.2.1, l.2.2))) := by
  have hl := Pre.lines_text (ws := L.map (·.1)) (by
    intro w hw
    obtain ⟨l, hl, rfl⟩ := List.mem_map.mp hw
    exact (h l hl).2.2)
  rw [List.flatMap_map] at hl
  unfold Pre.parse
  rw [hl]
  refine Pre.mapM_map (fun l hl => ?_)
  obtain ⟨h1, h2, _⟩ := h l hl
  have hw := Pre.split_iff.mpr h1
  have hne : l.2.1 ≠ [] := (Pre.split_words (s := l.1) (w := l.2.1) (by rw [hw]; simp)).1
  unfold Pre.parseLine
  rw [hw]
  dsimp only
  unfold Pre.int?
  rw [if_pos (by rw [h2]; simp [hne])]
  rfl

/-- A line is accepted only if it consists of a numeral and terms. -/
theorem C48_accepted {X : Str} {L : List (Str × Nat × List Str)} (hp : Pre.parse X = some L) :
    ∀ l ∈ L, ∃ s ∈ Pre.lines X, Words s (l.1 :: l.2.2) ∧ l.1.all isDigit = true ∧ num l.1 = l.2.1 := by
  intro l hl
  obtain ⟨s, hs, h⟩ := Pre.mapM_mem hp l hl
  have hg := Pre.parseLine_good h
  refine ⟨s, hs, ?_, hg.digits, hg.num⟩
  rw [← Pre.split_iff]
  unfold Pre.parseLine at h
  revert h
  cases Pre.split s with
  | nil => simp
  | cons x ts =>
      intro h
      dsimp only at h
      cases hi : Pre.int? x with
      | none => rw [hi] at h; simp at h
      | some d =>
          rw [hi] at h
          simp only [Option.map_some, Option.some.injEq] at h
          rw [← h]

/-- **C48**: for every text that the scripts accept and whose collection is valid, the scripts write files that the constructors of the
indexes accept, and what is read from these files is what C43 describes, whatever was in memory before. The two ways of
reading the completions agree. -/
theorem C48_files {X : Str} {L : List (Str × Nat × List Str)} (hp : Pre.parse X = some L) (hv : ValidColl (Pre.collOf L)) (junk : Nat) :
    ∃ T P, Pre.prepare X = some T ∧ Params.load junk T.stats = .ok P ∧ P.numCompl = L.length ∧ T.read P = .ok (Pre.run (Pre.collOf L)) ∧
      readSome P.numCompl T.mapped = AC.readAll T.mapped := by
  obtain ⟨T, P, h1, h2, _, h4, h5, h6, _⟩ := Pre.prepare_read junk hp hv
  exact ⟨T, P, h1, h2, h4, h5, h6⟩

/-- **C48**, the numbers of nodes in the file of statistics: there are as many levels as terms in the longest completion, and one more; for every level `l`
the number is that of the different beginnings of `l + 1` terms of completions, where the end of a completion counts as a term. -/
theorem C48_nodes {X : Str} {L : List (Str × Nat × List Str)} (hp : Pre.parse X = some L) (hv : ValidColl (Pre.collOf L)) (junk : Nat) :
    ∃ T P, Pre.prepare X = some T ∧ Params.load junk T.stats = .ok P ∧ P.nodes.length = P.levels ∧
      (∀ l ∈ L, l.2.2.length < P.levels) ∧ (∃ l ∈ L, l.2.2.length + 1 = P.levels) ∧
      ∀ l, l < P.levels → ∃ D : List (List (Option Str)), D.Nodup ∧ P.nodes[l]? = some D.length ∧
        ∀ p, p ∈ D ↔ p.length = l + 1 ∧ ∃ r ∈ L, p <+: r.2.2.map some ++ [none] := by
  obtain ⟨T, P, h1, h2, _, _, _, _, h3, h4, h5⟩ := Pre.prepare_read junk hp hv
  obtain ⟨n1, n2⟩ := Pre.numLevels_spec (cs := (Pre.mapDataset (Pre.extractDict (Pre.collOf L)) (Pre.collOf L)).map (·.2)) (by simpa [Pre.mapDataset] using hv.ne)
  rw [← h4] at n1 n2
  refine ⟨T, P, h1, h2, h3, ?_, ?_, ?_⟩
  · intro l hl
    have := n2 (l.2.2.map (Pre.tokenId (Pre.extractDict (Pre.collOf L)))) (by simpa [Pre.mapDataset, Pre.collOf] using ⟨l.1, l.2.1, l.2.2, hl, rfl⟩)
    simpa using this
  · obtain ⟨c, hc, e⟩ := n1
    simp only [Pre.mapDataset, Pre.collOf, List.map_map, List.mem_map, Function.comp] at hc
    obtain ⟨l, hl, rfl⟩ := hc
    exact ⟨l, hl, by simpa using e⟩
  · intro l hl
    obtain ⟨D, d1, d2, d3⟩ := Pre.newAt_terms hv.sorted l
    refine ⟨D, d1, ?_, ?_⟩
    · rw [h5, Pre.nodes_values (n := P.levels) (by rw [← h3, h5, List.length_map, (Pre.sortKeys_perm _).length_eq]), List.getElem?_map, List.getElem?_range hl, d2]
      rfl
    · intro p
      rw [d3 p]
      refine and_congr Iff.rfl ⟨?_, ?_⟩
      · rintro ⟨r, hr, e⟩
        obtain ⟨l, hl, rfl⟩ := List.mem_map.mp hr
        exact ⟨l, hl, e⟩
      · rintro ⟨l, hl, e⟩
        exact ⟨l.2, List.mem_map.mpr ⟨l, hl, rfl⟩, e⟩

theorem C48_index {α : Type} (build : Files → M α) {X : Str} {L : List (Str × Nat × List Str)} (hp : Pre.parse X = some L)
    (hv : ValidColl (Pre.collOf L)) (junk : Nat) : indexOf build junk X = build (Pre.run (Pre.collOf L)) := by
  obtain ⟨T, P, h1, h2, _, h4, _⟩ := C48_files hp hv junk
  unfold indexOf indexOfTexts
  rw [h1]
  dsimp only
  rw [h2, M.ok_bind, h4, M.ok_bind]

/-- From the text to the answers: an index of type 1, 2 or 3 is built from the files of the text, and is an index of its collection, of which
the other properties speak. -/
theorem C48_serves {X : Str} {L : List (Str × Nat × List Str)} (hp : Pre.parse X = some L) (hv : ValidColl (Pre.collOf L)) (junk : Nat) (mem : Nat → W) :
    (Suits1 (Pre.collOf L) → ∃ x, indexOf (Index1.build · mem) junk X = .ok x ∧ IsIndex (Pre.collOf L) x.ask) ∧
    (Suits2 (Pre.collOf L) → ∃ x, indexOf (Index2.build · mem) junk X = .ok x ∧ IsIndex (Pre.collOf L) x.ask) ∧
    (Suits3 (Pre.collOf L) → ∃ x, indexOf (Index3.build · mem) junk X = .ok x ∧ IsIndex (Pre.collOf L) x.ask) := by
  refine ⟨fun hw => ?_, fun hw => ?_, fun hw => ?_⟩
  · obtain ⟨x, hx, _⟩ := Index1.exists hv.ready hw mem
    exact ⟨x, by rw [C48_index _ hp hv]; exact hx, .type1 hw hx⟩
  · obtain ⟨x, hx, _⟩ := Index2.exists hv.ready hw mem
    exact ⟨x, by rw [C48_index _ hp hv]; exact hx, .type2 hw hx⟩
  · obtain ⟨x, hx, _⟩ := Index3.exists hv.ready hw mem
    exact ⟨x, by rw [C48_index _ hp hv]; exact hx, .type3 hw hx⟩

/-- the input file of the sample, with some freedom: "4 ab b", " 2 ab c ", "000 b", "7 b ab", "5 c b b" -/
def sampleText : Str :=
  [52, 32, 97, 98, 32, 98, 10, 32, 50, 32, 97, 98, 9, 99, 32, 10, 48, 48, 48, 32, 98, 13, 10, 55, 32, 98, 32, 32, 97, 98, 10, 53, 32, 99, 32, 98, 32, 98]

def sampleLines : List (Str × Nat × List Str) :=
  [([52], 4, [[97, 98], [98]]), ([50], 2, [[97, 98], [99]]), ([48, 48, 48], 0, [[98]]), ([55], 7, [[98], [97, 98]]), ([53], 5, [[99], [98], [98]])]

theorem sampleText_parse : Pre.parse sampleText = some sampleLines := by decide +kernel
theorem sampleText_coll : Pre.collOf sampleLines = sampleColl := by decide +kernel

/-- C48 applies to the sample; its statistics are "3 3 5 8 4 3 5 4 1" -/
example : ∃ T P, Pre.prepare sampleText = some T ∧ Params.load 77 T.stats = .ok P ∧ P.numCompl = 5 ∧ T.read P = .ok (Pre.run sampleColl) := by
  obtain ⟨T, P, h1, h2, h3, h4, _⟩ := C48_files sampleText_parse (by rw [sampleText_coll]; exact sampleColl_valid) 77
  rw [sampleText_coll] at h4
  exact ⟨T, P, h1, h2, h3, h4⟩

/-- the sample has four levels; there are five beginnings of two terms: "ab b", "ab c", "b" (ended), "b ab", "c b" -/
example : ∃ T P, Pre.prepare sampleText = some T ∧ Params.load 77 T.stats = .ok P ∧ P.levels = 4 ∧ P.nodes[1]? = some 5 := by
  obtain ⟨T, P, h1, h2, _, h3, h4, h5⟩ := C48_nodes sampleText_parse (by rw [sampleText_coll]; exact sampleColl_valid) 77
  have hl : P.levels = 4 := by
    obtain ⟨l, hl, e⟩ := h4
    have a1 := h3 ([53], 5, [[99], [98], [98]]) (by decide)
    have a2 : ∀ l ∈ sampleLines, l.2.2.length ≤ 3 := by decide
    have := a2 l hl
    change 3 < P.levels at a1
    omega
  obtain ⟨D, d1, d2, d3⟩ := h5 1 (by omega)
  refine ⟨T, P, h1, h2, hl, ?_⟩
  have : D.Perm [[some [97, 98], some [98]], [some [97, 98], some [99]], [some [98], none], [some [98], some [97, 98]], [some [99], some [98]]] := by
    rw [List.perm_ext_iff_of_nodup d1 (by decide)]
    intro p
    rw [d3]
    simp only [sampleLines, List.mem_cons, List.not_mem_nil, or_false, exists_eq_or_imp, exists_eq_left, List.map_cons, List.map_nil, List.cons_append,
      List.nil_append]
    match p with
    | [] => simp
    | [a] => simp
    | [a, b] =>
        simp only [List.cons_prefix_cons, List.nil_prefix, and_true, List.cons.injEq, List.length_cons, List.length_nil, true_and]
    | a :: b :: c :: d => simp
  rw [d2, this.length_eq]
  rfl

example : ∃ x, indexOf (Index1.build · (fun _ => 0)) 0 sampleText = .ok x ∧ IsIndex sampleColl x.ask := by
  have h := (C48_serves sampleText_parse (by rw [sampleText_coll]; exact sampleColl_valid) 0 (fun _ => 0)).1
  rw [sampleText_coll] at h
  exact h sampleColl_suits.toSuits1

example : (Pre.prepare sampleText).map (·.stats) = some [51, 10, 51, 10, 53, 10, 56, 10, 52, 10, 51, 10, 53, 10, 52, 10, 49, 10] := by decide +kernel

/-- the words of " 2 ab\tc " -/
example : Words [32, 50, 32, 97, 98, 9, 99, 32] [[50], [97, 98], [99]] := Pre.split_iff.mp (by decide +kernel)

/-! ## C49 -/

/-- What is read from a file of statistics with the numbers `v`, whatever they are. The fourth has the value that was in memory if it is missing. -/
theorem C49_exact (junk : Nat) {es : List (Str × Str)} (hes : ∀ e ∈ es, Numeral e) :
    Params.load junk (textOfNumerals es) =
      (let v := es.map (fun e => num e.1)
       if v.getD 1 0 > 128 ∨ v.getD 4 0 > 64 ∨ v.length + 1 < 5 + v.getD 4 0 ∧ 5 ≤ v.length then .error .thrown
       else .ok ⟨v.getD 0 0, v.getD 1 0, v.getD 2 0, v.getD 3 junk, v.getD 4 0, (v.drop 5 ++ List.replicate (v.getD 4 0) 0).take (v.getD 4 0)⟩) := by
  have := load_numerals junk hes
  simp only [List.length_map]
  exact this

/-- **C49** (partly): a file that lacks two numbers of nodes or more is rejected, as is one that exceeds the limits; a complete one is read as it is.
Missing from the claim: a file that lacks one of the numbers, or all of them and some of those before (`C49_false`, `C49_false_short`). -/
theorem C49_partial (junk : Nat) {es : List (Str × Str)} (hes : ∀ e ∈ es, Numeral e) {a b c d n : Nat} {ns : List Nat}
    (hv : es.map (fun e => num e.1) = [a, b, c, d, n] ++ ns) :
    (ns.length + 1 < n ∨ 128 < b ∨ 64 < n → Params.load junk (textOfNumerals es) = .error .thrown) ∧
    (ns.length = n → b ≤ 128 → n ≤ 64 → Params.load junk (textOfNumerals es) = .ok ⟨a, b, c, d, n, ns⟩) := by
  rw [C49_exact junk hes, hv]
  change (_ → (if b > 128 ∨ n > 64 ∨ (ns.length + 5) + 1 < 5 + n ∧ 5 ≤ ns.length + 5 then _ else _) = _) ∧ (_ → _ → _ →
    (if b > 128 ∨ n > 64 ∨ (ns.length + 5) + 1 < 5 + n ∧ 5 ≤ ns.length + 5 then _ else Except.ok (Params.mk a b c d n ((ns ++ List.replicate n 0).take n))) = _)
  refine ⟨fun h => if_pos (by omega), fun h1 h2 h3 => ?_⟩
  rw [if_neg (by omega), ← h1, List.take_left]

/-- C49 is false: when the last number is missing, the file is accepted, with the value 0. -/
theorem C49_false (junk : Nat) {es : List (Str × Str)} (hes : ∀ e ∈ es, Numeral e) {a b c d : Nat} {ns : List Nat} (hb : b ≤ 128) (hn : ns.length + 1 ≤ 64)
    (hv : es.map (fun e => num e.1) = [a, b, c, d, ns.length + 1] ++ ns) :
    Params.load junk (textOfNumerals es) = .ok ⟨a, b, c, d, ns.length + 1, ns ++ [0]⟩ := by
  rw [C49_exact junk hes, hv]
  change (if b > 128 ∨ ns.length + 1 > 64 ∨ (ns.length + 5) + 1 < 5 + (ns.length + 1) ∧ 5 ≤ ns.length + 5 then _ else
    Except.ok (Params.mk a b c d (ns.length + 1) ((ns ++ List.replicate (ns.length + 1) 0).take (ns.length + 1)))) = _
  rw [if_neg (by omega), List.replicate_succ, List.take_append, List.take_of_length_le (by omega)]
  simp

/-- C49 is false: when there are at most four numbers, even none, the file is accepted; with at most three, `universe` is what was in memory. -/
theorem C49_false_short (junk : Nat) {es : List (Str × Str)} (hes : ∀ e ∈ es, Numeral e) {v : List Nat} (hv : es.map (fun e => num e.1) = v)
    (hlen : v.length < 5) (hb : v.getD 1 0 ≤ 128) :
    Params.load junk (textOfNumerals es) = .ok ⟨v.getD 0 0, v.getD 1 0, v.getD 2 0, v.getD 3 junk, 0, []⟩ := by
  rw [C49_exact junk hes, hv]
  have h4 : v.getD 4 0 = 0 := by
    rw [List.getD_eq_getElem?_getD, List.getElem?_eq_none (by omega)]
    rfl
  dsimp only
  rw [if_neg (by omega), h4]
  simp

theorem getU32_minus {b : Nat} {r : Str} (hb : isDigit b = true) (old : Nat) {x : Nat} {t : Stream} (h : (Stream.ofText (b :: r)).getU32 old = (x, t))
    (hf : t.fail = false) : (Stream.ofText (45 :: b :: r)).getU32 old = ((2 ^ 32 - x) % 2 ^ 32, t) := by
  have hs : isSpace b = false := digit_not_space hb
  have h45 : isSpace 45 = false := by decide
  have hn : b ≠ 45 ∧ b ≠ 43 := by
    constructor <;> rintro rfl <;> exact absurd hb (by decide)
  have e1 : (Stream.ofText (b :: r)).sentry = ⟨b :: r, false, false⟩ := by
    simp [Stream.ofText, Stream.sentry, hs]
  have e2 : (Stream.ofText (45 :: b :: r)).sentry = ⟨45 :: b :: r, false, false⟩ := by
    simp [Stream.ofText, Stream.sentry, h45]
  unfold Stream.getU32 at h ⊢
  rw [e1] at h
  rw [e2]
  simp only [Stream.sign, if_neg hn.1, if_neg hn.2, if_true, Bool.false_eq_true, if_false, List.takeWhile_cons, hb, List.isEmpty_cons] at h ⊢
  split at h
  · cases h; simp at hf
  · rename_i hlt
    rw [if_neg hlt]
    cases h
    rfl

/-- C49 is false: a negative number is accepted, as a large one. -/
theorem C49_false_negative (junk : Nat) {es : List (Str × Str)} (hes : ∀ e ∈ es, Numeral e) {a b c d n : Nat} {ns : List Nat}
    (hv : es.map (fun e => num e.1) = [a, b, c, d, n] ++ ns) (ha : 0 < a) (hb : b ≤ 128) (hn : n ≤ 64) (hns : ns.length = n) :
    Params.load junk (45 :: textOfNumerals es) = .ok ⟨2 ^ 32 - a, b, c, d, n, ns⟩ := by
  have h := (C49_partial junk hes hv).2 hns hb hn
  cases es with
  | nil => cases hv
  | cons e es =>
      have he := hes e (by simp)
      obtain ⟨t, t1, t2, _⟩ := Left.next (es := es) he (s := .ofText (textOfNumerals (e :: es))) ⟨fun _ => ⟨rfl, [], rfl, rfl⟩, by simp [Stream.ofText]⟩ 0
      have hnum : num e.1 = a := by
        simp only [List.map_cons, List.cons_append, List.cons.injEq] at hv
        exact hv.1
      obtain ⟨x, r, hx⟩ : ∃ x r, e.1 = x :: r := by
        cases h1 : e.1 with
        | nil => exact absurd h1 he.ne
        | cons x r => exact ⟨x, r, rfl⟩
      have htext : ∃ r', textOfNumerals (e :: es) = x :: r' := by
        unfold textOfNumerals
        rw [List.flatMap_cons, hx]
        exact ⟨_, rfl⟩
      obtain ⟨r', hr'⟩ := htext
      have hd : isDigit x = true := by
        have := he.digits
        rw [hx, List.all_cons, Bool.and_eq_true] at this
        exact this.1
      have hlt : num e.1 < 2 ^ 32 := he.small
      rw [hr'] at h t1 ⊢
      have hm := getU32_minus hd 0 t1 t2
      unfold Params.load at h ⊢
      rw [t1] at h
      rw [hm, hnum, Nat.mod_eq_of_lt (by omega)]
      dsimp only at h ⊢
      split at h
      · cases h
      · rename_i h1
        rw [if_neg h1]
        split at h
        · cases h
        · rename_i h2
          rw [if_neg h2]
          split at h
          · cases h
          · rename_i h3
            rw [if_neg h3]
            simp only [Except.ok.injEq, Params.mk.injEq] at h ⊢
            exact ⟨trivial, h.2⟩

/-- "-3" for the number of terms -/
example : Params.load 9 [45, 51, 10, 51, 10, 53, 10, 56, 10, 1 + 48, 10, 51, 10] = .ok ⟨4294967293, 3, 5, 8, 1, [3]⟩ :=
  C49_false_negative 9 (es := [([51], [10]), ([51], [10]), ([53], [10]), ([56], [10]), ([49], [10]), ([51], [10])])
    (by simp only [List.mem_cons, List.not_mem_nil, or_false]
        rintro e (rfl | rfl | rfl | rfl | rfl | rfl) <;> exact ⟨by decide, by decide, by decide, by decide, by decide⟩)
    (a := 3) (b := 3) (c := 5) (d := 8) (n := 1) (ns := [3]) (by decide +kernel) (by decide) (by decide) (by decide) rfl

/-- the numerals "3 3 5 8 4 3 5 4 " lack the last number of the statistics of the sample -/
example : Params.load 9 [51, 10, 51, 10, 53, 10, 56, 10, 52, 10, 51, 10, 53, 10, 52, 10] = .ok ⟨3, 3, 5, 8, 4, [3, 5, 4, 0]⟩ :=
  C49_false 9 (es := [([51], [10]), ([51], [10]), ([53], [10]), ([56], [10]), ([52], [10]), ([51], [10]), ([53], [10]), ([52], [10])])
    (by simp only [List.mem_cons, List.not_mem_nil, or_false]
        rintro e (rfl | rfl | rfl | rfl | rfl | rfl | rfl | rfl) <;> exact ⟨by decide, by decide, by decide, by decide, by decide⟩)
    (a := 3) (b := 3) (c := 5) (d := 8) (ns := [3, 5, 4]) (by decide) (by decide) (by decide +kernel)

/-- the empty file -/
example : Params.load 9 [] = .ok ⟨0, 0, 0, 9, 0, []⟩ := C49_false_short 9 (es := []) (by simp) rfl (by decide) (by decide)

/-! ## C50 -/

/-- C50 is false: when the document id of a record is not a number, reading the record never ends, whatever comes before and after. (The loop of
`readTerms` ends for no number of iterations, so the bound in `readNext` does not matter.) -/
theorem C50_hangs (doc : Nat) {gap : Str} (hg : gap.all isSpace = true) {b : Nat} (hs : isSpace b = false) (hd : isDigit b = false) (hm : b ≠ 45)
    (hp : b ≠ 43) (r : Str) : ∃ s, Stream.getU32 doc ⟨gap ++ b :: r, false, false⟩ = (0, s) ∧
      (∀ fuel, AC.readTerms fuel INVALID_TERM [] s = .error .diverge) ∧ readNext doc ⟨gap ++ b :: r, false, false⟩ = .error .diverge := by
  have h : Stream.getU32 doc ⟨gap ++ b :: r, false, false⟩ = (0, ⟨b :: r, false, true⟩) := by
    unfold Stream.getU32
    rw [Stream.sentry_skip hg hs]
    dsimp only
    rw [if_neg (by simp)]
    have : Stream.sign (b :: r) = (false, b :: r) := by
      simp only [Stream.sign]
      rw [if_neg hm, if_neg hp]
    rw [this]
    dsimp only
    rw [List.takeWhile_cons_of_neg (by simp [hd]), List.dropWhile_cons_of_neg (by simp [hd])]
    rfl
  have hl : ∀ fuel, AC.readTerms fuel INVALID_TERM [] ⟨b :: r, false, true⟩ = .error .diverge :=
    fun fuel => readTerms_failed fuel _ _ _ (by decide) rfl rfl
  refine ⟨_, h, hl, ?_⟩
  unfold readNext
  rw [h]
  dsimp only
  rw [hl]
  rfl

/-- The same for a document id of 2^32 or more. -/
theorem C50_hangs_large (doc : Nat) {gap : Str} (hg : gap.all isSpace = true) {ds : Str} (hne : ds ≠ []) (hd : ds.all isDigit = true) (hbig : 2 ^ 32 ≤ num ds)
    {b : Nat} (hb : isDigit b = false) (r : Str) : ∃ s, Stream.getU32 doc ⟨gap ++ (ds ++ b :: r), false, false⟩ = (2 ^ 32 - 1, s) ∧
      (∀ fuel, AC.readTerms fuel INVALID_TERM [] s = .error .diverge) ∧ readNext doc ⟨gap ++ (ds ++ b :: r), false, false⟩ = .error .diverge := by
  have h : Stream.getU32 doc ⟨gap ++ (ds ++ b :: r), false, false⟩ = (2 ^ 32 - 1, ⟨b :: r, false, true⟩) := by
    cases ds with
    | nil => exact absurd rfl hne
    | cons c ds =>
        have hc : isDigit c = true := by rw [List.all_cons, Bool.and_eq_true] at hd; exact hd.1
        unfold Stream.getU32
        rw [List.cons_append, Stream.sentry_skip hg (digit_not_space hc)]
        dsimp only
        rw [if_neg (by simp)]
        have hs : Stream.sign (c :: (ds ++ b :: r)) = (false, c :: (ds ++ b :: r)) := by
          rw [isDigit_iff] at hc
          simp only [Stream.sign]
          rw [if_neg (by omega), if_neg (by omega)]
        rw [hs]
        dsimp only
        have hsp := span_all (p := isDigit) (c :: ds) (s := b :: r) hd hb
        rw [← List.cons_append, hsp.1, hsp.2, if_neg (by simp), if_pos hbig]
        rfl
  have hl : ∀ fuel, AC.readTerms fuel INVALID_TERM [] ⟨b :: r, false, true⟩ = .error .diverge :=
    fun fuel => readTerms_failed fuel _ _ _ (by decide) rfl rfl
  refine ⟨_, h, hl, ?_⟩
  unfold readNext
  rw [h]
  dsimp only
  rw [hl]
  rfl

/-- C50 is false: when lists are missing at the end of the file of posting lists, they are taken for empty lists without notice, and the construction of
the index goes out of bounds (in `list.front()`). Of the lists of the collection, the first `m` are there. -/
theorem C50_truncated {C : Coll} (hC : ValidColl C) (hw : Suits1 C) {m : Nat} (hm : m < (Pre.run C).inverted.length) :
    ∃ lists, readLists (Pre.run C).terms.length (.ofText (((Pre.run C).inverted.take m).flatMap Pre.listText)) = .ok lists ∧
      ∀ mem, Index1.build { Pre.run C with inverted := lists } mem = .error .oob := by
  have hR := hC.ready
  refine ⟨(Pre.run C).inverted.take m ++ List.replicate ((Pre.run C).inverted.length - m) [], ?_, ?_⟩
  · have := readLists_truncated ((Pre.run C).inverted.length - m) ((Pre.run C).inverted.take m) [] (by decide) (by
      intro l hl
      obtain ⟨i, hi, rfl⟩ := hR.mem_inverted (List.mem_of_mem_take hl)
      have hlt : ∀ x ∈ (Pre.run C).inverted.getD i [], x < (Pre.run C).univ := by
        intro x hx
        obtain ⟨c, hc, _⟩ := (hR.files.memList i x hi).mp hx
        exact hR.files.lt_univ _ hc
      have hu := hR.univ_lt
      refine ⟨?_, fun x hx => Nat.lt_trans (hlt x hx) hu⟩
      have := nodup_subset_length' (A := (Pre.run C).inverted.getD i []) (B := List.range (Pre.run C).univ)
        ((hR.files.sortedList i hi).imp (fun h => Nat.ne_of_lt h)) (fun x hx => List.mem_range.mpr (hlt x hx))
      rw [List.length_range] at this
      omega)
    rw [List.nil_append, List.length_take, Nat.min_eq_left (Nat.le_of_lt hm), Nat.add_sub_cancel' (Nat.le_of_lt hm)] at this
    rw [← hR.files.numLists]
    exact this
  · intro mem
    obtain ⟨x, hx, _⟩ := Index1.exists hR hw mem
    unfold Index1.build at hx ⊢
    obtain ⟨b, hb, _⟩ := bind_ok hx
    dsimp only
    rw [InvBuilder.mk'_missing hb (by omega), M.error_bind]

/-- **C50** (partly): reading the files of a collection ends, and the indexes are built without going out of bounds. Missing from the claim: files
that the scripts did not write (`C50_hangs`, `C50_hangs_large`, `C50_truncated`). -/
theorem C50_partial {X : Str} {L : List (Str × Nat × List Str)} (hp : Pre.parse X = some L) (hv : ValidColl (Pre.collOf L)) (junk : Nat) (mem : Nat → W)
    (hw : Suits2 (Pre.collOf L)) : (∃ x, indexOf (Index1.build · mem) junk X = .ok x) ∧ (∃ x, indexOf (Index2.build · mem) junk X = .ok x) ∧
      ∃ x, indexOf (Index3.build · mem) junk X = .ok x := by
  obtain ⟨h1, h2, h3⟩ := C48_serves hp hv junk mem
  obtain ⟨x1, h1, _⟩ := h1 hw.toSuits1
  obtain ⟨x2, h2, _⟩ := h2 hw
  obtain ⟨x3, h3, _⟩ := h3 hw.to3
  exact ⟨⟨x1, h1⟩, ⟨x2, h2⟩, ⟨x3, h3⟩⟩

/-- a file with the line "x 1 0" never ends -/
example : AC.readAll [120, 32, 49, 32, 48, 10] = .error .diverge := by
  obtain ⟨_, _, _, h⟩ := C50_hangs 0 (gap := []) (by decide) (b := 120) (by decide) (by decide) (by decide) (by decide) [32, 49, 32, 48, 10]
  unfold AC.readAll Stream.ofText
  rw [List.nil_append] at h
  rw [h]
  rfl

/-- the second of the lists of the sample and those after it are missing -/
example : ∃ lists, readLists 3 (.ofText [51, 32, 50, 32, 52, 32, 55, 10]) = .ok lists ∧
    Index1.build { Pre.run sampleColl with inverted := lists } (fun _ => 0) = .error .oob := by
  obtain ⟨lists, h1, h2⟩ := C50_truncated sampleColl_valid sampleColl_suits.toSuits1 (m := 1) (by decide +kernel)
  have e1 : (Pre.run sampleColl).terms.length = 3 := by decide +kernel
  have e2 : ((Pre.run sampleColl).inverted.take 1).flatMap Pre.listText = [51, 32, 50, 32, 52, 32, 55, 10] := by decide +kernel
  rw [e1, e2] at h1
  exact ⟨lists, h1, h2 _⟩

end AC.Props
