import Verif.Proofs.Effect
import Verif.Props.Parse
import Verif.Props.Text
import Verif.Props.Answers4
/-!
# C56, C57 and C58: the programs for the experiments
-/
namespace AC.Props
open AC Spec

/-! ## C56 -/

theorem mapQueries_lines {L : List Str} (v : ValidTerms L) (hne : L ≠ []) {text : Str} {ls : List Str} (h : Lines text ls) (n : Nat)
    (hl : ∀ l ∈ ls.take n, l ≠ [] ∧ IsText l) :
    ∃ d, FcDict.build L = .ok d ∧ ∀ buf, buf.length = FcDict.bufSize →
      ∃ out os, mapQueries d n (.ofText text) buf = .ok out ∧ Lines out os ∧ os.length = min n ls.length ∧
        ∀ (i : Nat) (line o : Str), ls[i]? = some line → os[i]? = some o →
          Words o (((queryTerms line).map (numberOf (findable L))).map Pre.dec) := by
  obtain ⟨d, h1, R⟩ := findable_locates v hne
  refine ⟨d, h1, ?_⟩
  intro buf hb
  refine ⟨_, (ls.take n).map (fun l => tabLine ((queryTerms l).map (numberOf (findable L)))), mapQueries_spec R h n buf hb hl, ?_, ?_, ?_⟩
  · have := Lines.of_flatMap (os := (ls.take n).map (fun l => tabLine ((queryTerms l).map (numberOf (findable L))))) (by
      intro o ho
      obtain ⟨l, _, rfl⟩ := List.mem_map.mp ho
      exact tabLine_newline _)
    rw [List.flatMap_map] at this
    exact this
  · rw [List.length_map, List.length_take]
  · intro i line o hi ho
    rw [List.getElem?_map] at ho
    have hlt : i < n := by
      apply Classical.byContradiction
      intro hc
      rw [List.getElem?_eq_none (by rw [List.length_take]; omega)] at ho
      simp at ho
    rw [List.getElem?_take_of_lt hlt, hi] at ho
    simp only [Option.map_some, Option.some.injEq] at ho
    rw [← ho]
    exact tabLine_words (by simpa using queryTerms_ne line)

/-- **C56**: `map_queries` prints one line for every line of its input, up to the number of queries asked for. The line has one number for every
term, in order: the position (from 0) of the term in the dictionary, or a number that is not a position if the term is not in the dictionary.
Missing from the claim: dictionaries whose number of terms is a multiple of 17 (`C56_false`), and inputs with empty lines (`C56_empty`). -/
theorem C56_map_partial {L : List Str} (v : ValidTerms L) (hn : L.length % 17 ≠ 0) {text : Str} {ls : List Str} (h : Lines text ls) (n : Nat)
    (hl : ∀ l ∈ ls.take n, l ≠ [] ∧ IsText l) :
    ∃ d, FcDict.build L = .ok d ∧ ∀ buf, buf.length = FcDict.bufSize →
      ∃ out os, mapQueries d n (.ofText text) buf = .ok out ∧ Lines out os ∧ os.length = min n ls.length ∧
        ∀ (i : Nat) (line o : Str), ls[i]? = some line → os[i]? = some o →
          ∃ ws, Words o ws ∧ (∀ w ∈ ws, w.all isDigit = true) ∧ Numbered L line (ws.map num) := by
  have hne : L ≠ [] := by rintro rfl; exact hn rfl
  obtain ⟨d, h1, h2⟩ := mapQueries_lines v hne h n hl
  rw [show findable L = L by rw [findable, if_neg hn]] at h2
  refine ⟨d, h1, ?_⟩
  intro buf hb
  obtain ⟨out, os, e1, e2, e3, e4⟩ := h2 buf hb
  refine ⟨out, os, e1, e2, e3, ?_⟩
  intro i line o hi ho
  refine ⟨_, e4 i line o hi ho, ?_, ?_⟩
  · intro w hw
    obtain ⟨x, _, rfl⟩ := List.mem_map.mp hw
    exact Pre.dec_digits x
  · rw [List.map_map, show (num ∘ Pre.dec) = id from funext Pre.num_dec, List.map_id]
    exact numbered v line

/-- For every dictionary whose number of terms is a multiple of 17 the last 16 terms are printed as if they were not in the dictionary. -/
theorem C56_false {L : List Str} (v : ValidTerms L) (hne : L ≠ []) (hn : L.length % 17 = 0) {t : Str} (ht : t ∈ L.drop (L.length - 16))
    (h1 : t ≠ []) (h2 : space ∉ t) (h3 : 10 ∉ t) :
    ∃ d, FcDict.build L = .ok d ∧ ∀ buf, buf.length = FcDict.bufSize →
      ∃ out os, mapQueries d 1 (.ofText t) buf = .ok out ∧ Lines out os ∧
        ∀ o, os[0]? = some o → ∃ w, Words o [w] ∧ w.all isDigit = true ∧ L.length ≤ num w ∧ ¬ Numbered L t [num w] := by
  have htL : t ∈ L := List.mem_of_mem_drop ht
  have hq : queryTerms t = [t] := by
    unfold queryTerms
    obtain ⟨q1, q2⟩ := completeTerms_token (t := t) (fun c hc e => h2 (by subst e; exact hc))
    rw [q1, q2]
    rfl
  obtain ⟨d, e1, e2⟩ := mapQueries_lines v hne (.last h1 h3) 1 (by
    intro l hl
    have : l = t := by simpa using hl
    subst this
    exact ⟨h1, v.text _ htL⟩)
  have hnf : t ∉ findable L := by
    rw [findable, if_pos hn]
    intro hm
    have hs : (L.take (L.length - 16) ++ L.drop (L.length - 16)).Pairwise (· < ·) := by
      rw [List.take_append_drop]
      exact v.sorted
    exact absurd ((List.pairwise_append.mp hs).2.2 t hm t ht) (List.lt_irrefl t)
  refine ⟨d, e1, ?_⟩
  intro buf hb
  obtain ⟨out, os, o1, o2, _, o4⟩ := e2 buf hb
  refine ⟨out, os, o1, o2, ?_⟩
  intro o ho
  have := o4 0 t o rfl ho
  rw [hq] at this
  have hnum : numberOf (findable L) t = INVALID_TERM - 1 := if_neg hnf
  have hc := v.count
  have hge : L.length ≤ INVALID_TERM - 1 := by unfold INVALID_TERM; omega
  refine ⟨Pre.dec (INVALID_TERM - 1), by simpa [hnum] using this, Pre.dec_digits _, by rw [Pre.num_dec]; exact hge, ?_⟩
  intro hN
  rw [Pre.num_dec] at hN
  rcases hN.each 0 t _ (by rw [hq]; rfl) rfl with h | h
  · rw [List.getElem?_eq_none hge] at h
    simp at h
  · exact h.1 htL

/-- the letters from a to q, of which the last is not found -/
example : ValidTerms ((List.range 17).map (fun i => [97 + i])) ∧ ((List.range 17).map (fun i => [97 + i])).length % 17 = 0 ∧
    [113] ∈ ((List.range 17).map (fun i => [97 + i])).drop (((List.range 17).map (fun i => [97 + i])).length - 16) := by decide +kernel

/-- an empty line makes the program read the first element of an empty vector -/
theorem C56_empty (d : FC) (n : Nat) (text buf : Str) : mapQueries d (n + 1) (.ofText (10 :: text)) buf = .error .oob := by
  rfl


def sampleQueries : Str := [98, 32, 120, 32, 99, 10, 97]

theorem sampleQueries_lines : Lines sampleQueries [[98, 32, 120, 32, 99], [97]] :=
  .next (l := [98, 32, 120, 32, 99]) (s := [97]) (by decide) (.last (by decide) (by decide))

/-- the hypotheses can be met: two lines with known and unknown terms; the first line of the output has three numbers -/
example : ∃ d, FcDict.build sampleTerms = .ok d ∧ ∀ buf, buf.length = FcDict.bufSize →
    ∃ out os, mapQueries d 10 (.ofText sampleQueries) buf = .ok out ∧ Lines out os ∧ os.length = 2 ∧ ∀ o, os[0]? = some o → ∃ ws, Words o ws ∧
      ws.length = 3 := by
  obtain ⟨d, h1, h2⟩ := C56_map_partial (L := sampleTerms) (by decide +kernel) (by decide) sampleQueries_lines 10 (by decide)
  refine ⟨d, h1, fun buf hb => ?_⟩
  obtain ⟨out, os, e1, e2, e3, e4⟩ := h2 buf hb
  refine ⟨out, os, e1, e2, e3, ?_⟩
  intro o ho
  obtain ⟨ws, w1, _, w3⟩ := e4 0 _ o rfl ho
  have := w3.length
  rw [List.length_map] at this
  exact ⟨ws, w1, this⟩

/-! ## C57 -/

/-- **C57**: the two files of `output_ds2i_format`, as 32-bit numbers. The first is a sequence of lists, each after its length: a list with
one more than the largest document id, and then for every term of the collection, in their order, the increasing list of the document ids of the
completions that have it. The second has lists of as many ones. -/
theorem C57_ds2i {X : Str} {L : List (Str × Nat × List Str)} (hp : Pre.parse X = some L) (hv : ValidColl (Pre.collOf L)) (junk : Nat) :
    ∃ T P docs freqs, Pre.prepare X = some T ∧ Params.load junk T.stats = .ok P ∧ ds2i P T.inverted = .ok (docs, freqs) ∧
      ∃ (ws fs : List Nat) (univ : Nat) (lists : List (List Nat)) (terms : List Str),
        words32 docs = some ws ∧ Lists ws ([univ] :: lists) ∧ words32 freqs = some fs ∧ Lists fs (lists.map (List.map (fun _ => 1))) ∧
        (∀ l ∈ L, l.2.1 < univ) ∧ (∃ l ∈ L, l.2.1 + 1 = univ) ∧
        terms.Pairwise (· < ·) ∧ (∀ t, t ∈ terms ↔ ∃ l ∈ L, t ∈ l.2.2) ∧ lists.length = terms.length ∧
        (∀ l ∈ lists, l.Pairwise (· < ·)) ∧
        ∀ (i : Nat) (t : Str) (l : List Nat), terms[i]? = some t → lists[i]? = some l → ∀ d, d ∈ l ↔ ∃ r ∈ L, r.2.1 = d ∧ t ∈ r.2.2 := by
  obtain ⟨T, P, h1, h2, _, _, h5, _⟩ := Pre.prepare_read junk hp hv
  have hR := hv.ready
  have hm : ∀ d c, (d, c) ∈ Pre.collOf L ↔ ∃ r ∈ L, r.2.1 = d ∧ r.2.2 = c := by
    intro d c
    unfold Pre.collOf
    rw [List.mem_map]
    constructor
    · rintro ⟨r, hr, e⟩; exact ⟨r, hr, by rw [e], by rw [e]⟩
    · rintro ⟨r, hr, rfl, rfl⟩; exact ⟨r, hr, rfl⟩
  have hu : (Pre.run (Pre.collOf L)).univ < 2 ^ 32 := hR.univ_lt
  unfold Texts.read at h5
  obtain ⟨_, _, h5⟩ := bind_ok h5
  obtain ⟨inv, hi, h5⟩ := bind_ok h5
  obtain ⟨fwd, _, h5⟩ := bind_ok h5
  injection h5 with h5
  have e1 : inv = (Pre.run (Pre.collOf L)).inverted := congrArg Files.inverted h5
  have e2 : P.univ = (Pre.run (Pre.collOf L)).univ := congrArg Files.univ h5
  have hb : ∀ l ∈ (Pre.run (Pre.collOf L)).inverted, l.length < 2 ^ 32 ∧ ∀ x ∈ l, x < 2 ^ 32 := by
    intro l hl
    obtain ⟨i, hi, rfl⟩ := hR.mem_inverted hl
    have hlt : ∀ x ∈ (Pre.run (Pre.collOf L)).inverted.getD i [], x < (Pre.run (Pre.collOf L)).univ := by
      intro x hx
      obtain ⟨c, hc, _⟩ := (hR.files.memList i x hi).mp hx
      exact hR.files.lt_univ _ hc
    refine ⟨?_, fun x hx => Nat.lt_trans (hlt x hx) hu⟩
    have := nodup_subset_length' (A := (Pre.run (Pre.collOf L)).inverted.getD i []) (B := List.range (Pre.run (Pre.collOf L)).univ)
      ((hR.files.sortedList i hi).imp (fun h => Nat.ne_of_lt h)) (fun x hx => List.mem_range.mpr (hlt x hx))
    rw [List.length_range] at this
    omega
  obtain ⟨ws, w1, w2⟩ := words32_lists (ls := [P.univ] :: (Pre.run (Pre.collOf L)).inverted) (by
    intro l hl
    rcases List.mem_cons.mp hl with rfl | hl
    · refine ⟨by simp, fun x hx => ?_⟩
      have : x = P.univ := by simpa using hx
      omega
    · exact hb l hl)
  obtain ⟨fs, f1, f2⟩ := words32_lists (ls := (Pre.run (Pre.collOf L)).inverted.map (List.map (fun _ => 1))) (by
    intro l hl
    obtain ⟨l', hl', rfl⟩ := List.mem_map.mp hl
    refine ⟨by rw [List.length_map]; exact (hb l' hl').1, fun x hx => ?_⟩
    obtain ⟨_, _, rfl⟩ := List.mem_map.mp hx
    decide)
  refine ⟨T, P, u32le 1 ++ u32le P.univ ++ (Pre.run (Pre.collOf L)).inverted.flatMap ds2iList,
    (Pre.run (Pre.collOf L)).inverted.flatMap (fun l => ds2iList (l.map (fun _ => 1))), h1, h2, ?_, ws, fs, P.univ, (Pre.run (Pre.collOf L)).inverted, (Pre.run (Pre.collOf L)).terms,
    ?_, w2, ?_, f2, ?_, ?_, hR.files.terms, ?_, hR.files.numLists, ?_, ?_⟩
  · unfold ds2i
    rw [hi, M.ok_bind, e1]
  · rw [← w1, List.flatMap_cons]
    simp only [ds2iList, List.length_singleton, List.flatMap_cons, List.flatMap_nil, List.append_nil]
  · rw [← f1, List.flatMap_map]
  · intro l hl
    rw [e2]
    exact hR.files.lt_univ (l.2.1, l.2.2) ((hm _ _).mpr ⟨l, hl, rfl, rfl⟩)
  · obtain ⟨r, hr, e⟩ := hR.files.univ
    obtain ⟨l, hl, q1, _⟩ := (hm r.1 r.2).mp hr
    exact ⟨l, hl, by rw [q1, e, e2]⟩
  · intro t
    rw [hR.files.memTerms]
    constructor
    · rintro ⟨r, hr, ht⟩
      obtain ⟨l, hl, _, q2⟩ := (hm r.1 r.2).mp hr
      exact ⟨l, hl, by rw [q2]; exact ht⟩
    · rintro ⟨l, hl, ht⟩
      exact ⟨(l.2.1, l.2.2), (hm _ _).mpr ⟨l, hl, rfl, rfl⟩, ht⟩
  · intro l hl
    obtain ⟨i, hi, rfl⟩ := hR.mem_inverted hl
    exact hR.files.sortedList i hi
  · intro i t l ht hl d
    obtain ⟨hlt, rfl⟩ := List.getElem?_eq_some_iff.mp ht
    have hlt' : i < (Pre.run (Pre.collOf L)).inverted.length := by rw [hR.files.numLists]; exact hlt
    have := hR.files.memList i d hlt
    rw [List.getD_eq_getElem?_getD, hl] at this
    simp only [Option.getD_some] at this
    rw [List.getD_eq_getElem?_getD, List.getElem?_eq_getElem hlt, Option.getD_some] at this
    rw [this]
    constructor
    · rintro ⟨c, hc, hx⟩
      obtain ⟨r, hr, q1, q2⟩ := (hm d c).mp hc
      refine ⟨r, hr, q1, ?_⟩
      rw [q2]
      exact hx
    · rintro ⟨r, hr, q1, hx⟩
      exact ⟨r.2.2, (hm _ _).mpr ⟨r, hr, q1, rfl⟩, hx⟩

/-- the lists that a file has are determined -/
theorem C57_unique {ws : List Nat} {a b : List (List Nat)} (ha : Lists ws a) (hb : Lists ws b) : a = b := ha.unique hb

/-- the files of the sample: three terms -/
example : ∃ T P, Pre.prepare sampleText = some T ∧ Params.load 77 T.stats = .ok P ∧ ∃ docs freqs, ds2i P T.inverted = .ok (docs, freqs) ∧
    words32 docs = some [1, 8, 3, 2, 4, 7, 4, 0, 4, 5, 7, 2, 2, 5] := by
  obtain ⟨T, P, docs, freqs, h1, h2, h3, _⟩ := C57_ds2i sampleText_parse (by rw [sampleText_coll]; exact sampleColl_valid) 77
  refine ⟨T, P, h1, h2, docs, freqs, h3, ?_⟩
  have : (Pre.prepare sampleText).bind (fun T => (Params.load 77 T.stats >>= fun P => ds2i P T.inverted).toOption.bind (fun r => words32 r.1)) =
      some [1, 8, 3, 2, 4, 7, 4, 0, 4, 5, 7, 2, 2, 5] := by decide +kernel
  rw [h1, Option.bind_some, h2, M.ok_bind, h3] at this
  exact this

/-- **C56** and **C57** together, from the text of a collection: the numbers that `map_queries` prints lead to the posting lists that `output_ds2i_format`
writes. Missing from the claim: as in `C56_map_partial`. -/
theorem C56_lists_partial {X : Str} {L : List (Str × Nat × List Str)} (hp : Pre.parse X = some L) (hv : ValidColl (Pre.collOf L)) (junk : Nat)
    (hn : ∃ n, NumTerms (Pre.collOf L) n ∧ n % 17 ≠ 0) :
    ∃ T P F d docs freqs, Pre.prepare X = some T ∧ Params.load junk T.stats = .ok P ∧ T.read P = .ok F ∧ FcDict.build F.terms = .ok d ∧
      ds2i P T.inverted = .ok (docs, freqs) ∧ ∃ (ws : List Nat) (univ : Nat) (lists : List (List Nat)),
        words32 docs = some ws ∧ Lists ws ([univ] :: lists) ∧
        ∀ (text : Str) (ls : List Str) (n : Nat) (buf : Str), Lines text ls → (∀ l ∈ ls.take n, l ≠ [] ∧ IsText l) → buf.length = FcDict.bufSize →
          ∃ out os, mapQueries d n (.ofText text) buf = .ok out ∧ Lines out os ∧ os.length = min n ls.length ∧
            ∀ (i : Nat) (line o : Str), ls[i]? = some line → os[i]? = some o →
              ∃ ws : List Str, Words o ws ∧ (∀ w ∈ ws, w.all isDigit = true) ∧ ws.length = (queryTerms line).length ∧
                ∀ (j : Nat) (t w : Str), (queryTerms line)[j]? = some t → ws[j]? = some w →
                  (∃ l, lists[num w]? = some l ∧ (∃ r ∈ L, t ∈ r.2.2) ∧ ∀ d, d ∈ l ↔ ∃ r ∈ L, r.2.1 = d ∧ t ∈ r.2.2) ∨
                  (lists.length ≤ num w ∧ ∀ r ∈ L, t ∉ r.2.2) := by
  obtain ⟨T, P, docs, freqs, h1, h2, h3, ws, fs, univ, lists, terms, w1, w2, _, _, _, _, s1, s2, s3, _, s5⟩ := C57_ds2i hp hv junk
  obtain ⟨T', P', h1', h2', _, h4, _⟩ := C48_files hp hv junk
  rw [h1] at h1'
  cases h1'
  rw [h2] at h2'
  cases h2'
  have hR := hv.ready
  have hterms : (Pre.run (Pre.collOf L)).terms = terms := by
    refine sorted_ext hR.files.terms s1 (fun t => ?_)
    rw [hR.files.memTerms, s2]
    unfold Pre.collOf
    constructor
    · rintro ⟨r, hr, ht⟩
      obtain ⟨l, hl, rfl⟩ := List.mem_map.mp hr
      exact ⟨l, hl, ht⟩
    · rintro ⟨l, hl, ht⟩
      exact ⟨l.2, List.mem_map.mpr ⟨l, hl, rfl⟩, ht⟩
  have hmod : terms.length % 17 ≠ 0 := by
    rw [← hterms]
    obtain ⟨n, n1, n2⟩ := hn
    rw [← hR.numTerms_eq n1]
    exact n2
  have hvt : ValidTerms terms := by rw [← hterms]; exact hR.validTerms
  obtain ⟨d, hd, hm⟩ := findable_locates hvt (by rintro rfl; exact hmod rfl)
  refine ⟨T, P, _, d, docs, freqs, h1, h2, h4, by rw [hterms]; exact hd, h3, ws, univ, lists, w1, w2, ?_⟩
  intro text ls n buf hl ht hb
  obtain ⟨d', hd', hall⟩ := C56_map_partial hvt hmod hl n ht
  rw [hd] at hd'
  cases hd'
  obtain ⟨out, os, e1, e2, e3, e4⟩ := hall buf hb
  refine ⟨out, os, e1, e2, e3, ?_⟩
  intro i line o hi ho
  obtain ⟨wo, f1, f2, f3⟩ := e4 i line o hi ho
  refine ⟨wo, f1, f2, by rw [← f3.length, List.length_map], ?_⟩
  intro j t w hj hw
  rcases f3.each j t (num w) hj (by rw [List.getElem?_map, hw]; rfl) with h | ⟨h, hge⟩
  · left
    have hlt : num w < lists.length := by rw [s3]; exact (List.getElem?_eq_some_iff.mp h).1
    refine ⟨lists[num w], List.getElem?_eq_getElem hlt, (s2 t).mp (List.mem_of_getElem? h), s5 _ t _ h (List.getElem?_eq_getElem hlt)⟩
  · right
    rw [s3]
    exact ⟨hge, fun r hr hm => h ((s2 t).mpr ⟨r, hr, hm⟩)⟩

/-- the text of the sample has three terms -/
example : ∃ n, NumTerms (Pre.collOf sampleLines) n ∧ n % 17 ≠ 0 := by
  rw [sampleText_coll]
  exact sampleColl_suits.terms

/-! ## C58 -/

variable {C : Coll} {run run' : StdLib → Ask → Scratch → M Scratch}

/-- a new object made from the index answers with these results -/
def Returns (run : StdLib → Ask → Scratch → M Scratch) (std : StdLib) (a : Ask) (res : List (Nat × Str)) : Prop :=
  ∃ t, run std a Scratch.fresh = .ok t ∧ t.pool.results = .ok res

/-- what the benchmark counts for one query, given the results of the two searches: those of the conjunctive search that are not among those of the prefix
search -/
def others (prefixRes conjRes : List (Nat × Str)) : List (Nat × Str) := conjRes.filter (fun r => decide (r ∉ prefixRes))

theorem length_filter_both {α : Type} (p : α → Bool) (l : List α) : l.length = (l.filter p).length + (l.filter (fun x => !p x)).length := by
  induction l with
  | nil => rfl
  | cons a l ih =>
      cases h : p a
      · rw [List.filter_cons_of_neg (by simp [h]), List.filter_cons_of_pos (by simp [h])]; simp only [List.length_cons]; omega
      · rw [List.filter_cons_of_pos h, List.filter_cons_of_neg (by simp [h])]; simp only [List.length_cons]; omega

/-- **C58**, types 1, 2 and 3: the two sums that the benchmark of effectiveness prints are the number of the results of all the prefix searches, and
the number of the results of the conjunctive searches that are not results of the corresponding prefix searches. Each of these is better
than one of the results of the prefix search, or there are fewer than `k` of those. All the queries are run, with the results that
they have on a new object, unless a query has too long results (then the program writes outside of its arrays, as C05 says).
Missing from the claim: type 4, for which it is false (`C58_false4`). -/
theorem C58_counts_partial (hC : ValidColl C) (hi : IsIndex C run) (hi' : IsIndex C run') (std std' : StdLib) {k : Nat} (hk : 1 ≤ k ∧ k ≤ 15) (qs : List Str)
    (hq : ∀ q ∈ qs, IsText q) {s1 s2 : Scratch} (hs1 : Visited run s1) (hs2 : Visited run' s2) :
    (Bench.effectiveness (fun q k s => run std ⟨false, q, k⟩ s) (fun q k s => run' std' ⟨true, q, k⟩ s) k qs s1 s2 = .error .oob ∧
      ∃ q ∈ qs, run std ⟨false, q, k⟩ Scratch.fresh = .error .oob ∨ run' std' ⟨true, q, k⟩ Scratch.fresh = .error .oob) ∨
    ∃ A : List (List (Nat × Str) × List (Nat × Str)),
      Bench.effectiveness (fun q k s => run std ⟨false, q, k⟩ s) (fun q k s => run' std' ⟨true, q, k⟩ s) k qs s1 s2 =
        .ok ((A.map (fun a => a.1.length)).sum, (A.map (fun a => (others a.1 a.2).length)).sum) ∧
      All2 (fun q a => Returns run std ⟨false, q, k⟩ a.1 ∧ Returns run' std' ⟨true, q, k⟩ a.2 ∧
        ∀ r ∈ others a.1 a.2, a.1.length < k ∨ ∃ e ∈ a.1, r.1 < e.1) qs A := by
  obtain ⟨pre, hp, h⟩ := hi.serves hC
  obtain ⟨pre', _, h'⟩ := hi'.serves hC
  induction qs generalizing s1 s2 with
  | nil => exact .inr ⟨[], rfl, .nil⟩
  | cons q qs ih =>
      have ha : Ask.Ok ⟨false, q, k⟩ := ⟨hq q (by simp), hk⟩
      have ha' : Ask.Ok ⟨true, q, k⟩ := ⟨hq q (by simp), hk⟩
      have o1 := h std ⟨false, q, k⟩ s1 ha (hs1.wf h)
      have o1' := h std ⟨false, q, k⟩ Scratch.fresh ha Scratch.fresh_wf
      have o2 := h' std' ⟨true, q, k⟩ s2 ha' (hs2.wf h')
      have o2' := h' std' ⟨true, q, k⟩ Scratch.fresh ha' Scratch.fresh_wf
      have same1 := o1.same hC.docs (fun _ _ => Iff.rfl) o1'
      have same2 := o2.same hC.docs (fun _ _ => Iff.rfl) o2'
      rw [Bench.effectiveness]
      dsimp only
      rcases same1 with ⟨x, y⟩ | ⟨t1, t1', res1, x1, y1, r1, r1'⟩
      · rw [x, M.error_bind]
        exact .inl ⟨rfl, q, by simp, .inl y⟩
      rcases same2 with ⟨x, y⟩ | ⟨t2, t2', res2, x2, y2, r2, r2'⟩
      · rw [x1, M.ok_bind, x, M.error_bind]
        exact .inl ⟨rfl, q, by simp, .inr y⟩
      obtain ⟨E1, b1, e1, _, p1⟩ := o1.cases x1
      obtain ⟨E2, b2, e2, _, p2⟩ := o2.cases x2
      have m1 : MAX_K = 15 := rfl
      obtain ⟨n1, v1⟩ := p1.scores_take (by rw [(o1.wf x1).scores]; have := b1.le; dsimp only at this; omega) e1
      obtain ⟨n2, v2⟩ := p2.scores_take (by rw [(o2.wf x2).scores]; have := b2.le; dsimp only at this; omega) e2
      rw [e1] at r1
      cases r1
      rw [e2] at r2
      cases r2
      have hdiff : (setDifference ((E1.map (·.1)).length + (E2.map (·.1)).length + 1) (E2.map (·.1)) (E1.map (·.1))).length =
          (others (E1.map shown) (E2.map shown)).length := by
        rw [setDifference_spec _ _ _ (List.pairwise_map.mpr b2.sorted) (List.pairwise_map.mpr b1.sorted) (by simp only [List.length_map]; omega),
          filter_shown hC.docs (fun r hr => (b1.sound r hr).1) (fun r hr => (b2.sound r hr).1), List.length_map]
        rfl
      have hle : (others (E1.map shown) (E2.map shown)).length ≤ k := by
        have h1 : (others (E1.map shown) (E2.map shown)).length ≤ (E2.map shown).length := List.length_filter_le ..
        have h2 := b2.le
        rw [List.length_map] at h1
        dsimp only at h2
        omega
      have hbetter : ∀ r ∈ others (E1.map shown) (E2.map shown), (E1.map shown).length < k ∨ ∃ e ∈ E1.map shown, r.1 < e.1 := by
        intro r hr
        obtain ⟨hr, hn⟩ := List.mem_filter.mp hr
        obtain ⟨r', hr', rfl⟩ := List.mem_map.mp hr
        have hn' : r' ∉ E1 := fun hm => absurd (List.mem_map.mpr ⟨r', hm, rfl⟩) (of_decide_eq_true hn)
        rcases Spec.Best.better hC.docs (foundBy_conj hp q k) b1 b2 hr' hn' with h | ⟨e, he, hlt⟩
        · exact .inl (by rw [List.length_map]; exact h)
        · exact .inr ⟨shown e, List.mem_map.mpr ⟨e, he, rfl⟩, hlt⟩
      rw [x1, M.ok_bind, x2, M.ok_bind]
      rw [v1, v2, n1, hdiff, if_neg (by omega)]
      rcases ih (fun q hm => hq q (List.mem_cons_of_mem _ hm)) (hs1.step ha x1) (hs2.step ha' x2) with ⟨e, q', hq', f⟩ | ⟨A, e, a⟩
      · rw [e, M.error_bind]
        exact .inl ⟨rfl, q', List.mem_cons_of_mem _ hq', f⟩
      · rw [e, M.ok_bind]
        refine .inr ⟨(E1.map shown, E2.map shown) :: A, ?_, .cons ⟨⟨t1', y1, r1'⟩, ⟨t2', y2, r2'⟩, hbetter⟩ a⟩
        simp only [List.map_cons, List.sum_cons, List.length_map]

/-- the hypotheses can be met: two queries to two objects made from the same index -/
example (mem : Nat → W) : ∃ x : Index1, IsIndex sampleColl x.ask ∧ Visited x.ask Scratch.fresh ∧ ∀ q ∈ [[98], [97, 98, 32, 99]], IsText q := by
  obtain ⟨x, h1, _⟩ := Index1.exists sampleColl_valid.ready sampleColl_suits.toSuits1 mem
  exact ⟨x, .type1 sampleColl_suits.toSuits1 h1, .fresh, by decide⟩

section type4
variable {C : Coll} (hC : ValidColl C) (hw : Suits4 C) {std₀ : StdLib} {m : Nat} {mem : Nat → W} {x : Index4}
  (hb : Index4.build std₀ m (Pre.run C) mem = .ok x)
include hC hw hb

theorem type4_prefix_sorted (std : StdLib) {q : Str} (hq : IsText q) :
    ∃ S : Coll, (∀ r ∈ S, r ∈ C) ∧ S.Pairwise (fun a b => a.1 < b.1) ∧ ∀ k, 1 ≤ k → k ≤ MAX_K → ∀ s : Scratch, s.WF →
      Shows (Pre.run C).terms (S.take k) (x.ask std ⟨false, q, k⟩ s) := by
  obtain ⟨docss, hx⟩ := Index4.rep_of_build hC hw.toSuits3 hb
  obtain ⟨E, b, _⟩ := Base.prefix_spec std hC.ready hx.base hx.dict hx.built hq (by decide) (Nat.le_refl MAX_K) Scratch.fresh_wf
  refine ⟨E, fun r hr => (b.sound r hr).1, b.sorted, ?_⟩
  intro k hk hk' s hs
  obtain ⟨E', b', h'⟩ := Base.prefix_spec std hC.ready hx.base hx.dict hx.built hq hk hk' hs
  rw [← b'.unique hC.docs (fun _ _ => Iff.rfl) (b.take hk')]
  exact h'

theorem type4_conj_sorted (std : StdLib) {q : Str} (hq : IsText q) :
    ∃ S : Coll, (∀ r ∈ S, r ∈ C) ∧ S.Pairwise (fun a b => a.1 ≤ b.1) ∧ ∀ k, 1 ≤ k → k ≤ MAX_K → ∀ s : Scratch, s.WF →
      Shows (Pre.run C).terms (S.take k) (x.ask std ⟨true, q, k⟩ s) := by
  obtain ⟨docss, hx⟩ := Index4.rep_of_build hC hw.toSuits3 hb
  obtain ⟨S, h1, hS⟩ := Index4.conj_spec hC.ready std hx hw.ids hq
  refine ⟨S, h1.mem, ?_, hS q hq rfl (fun _ => Iff.rfl)⟩
  by_cases h : ∃ t ∈ completeTerms q, IsTerm C t
  · exact (h1.inter h).1.imp (fun h => Nat.le_of_lt h)
  · exact (h1.union (fun t ht hc => h ⟨t, ht, hc⟩)).1

/-- What the benchmark prints for type 4: every result of a prefix search that is among the results of the conjunctive search removes one of these, also
when it is there several times. -/
theorem C58_type4 (std std' : StdLib) {k : Nat} (hk : 1 ≤ k ∧ k ≤ 15) (qs : List Str) (hq : ∀ q ∈ qs, IsText q) {s1 s2 : Scratch}
    (hs1 : Visited x.ask s1) (hs2 : Visited x.ask s2) :
    (Bench.effectiveness (fun q k s => x.ask std ⟨false, q, k⟩ s) (fun q k s => x.ask std' ⟨true, q, k⟩ s) k qs s1 s2 = .error .oob ∧
      ∃ q ∈ qs, x.ask std ⟨false, q, k⟩ Scratch.fresh = .error .oob ∨ x.ask std' ⟨true, q, k⟩ Scratch.fresh = .error .oob) ∨
    ∃ A : List (List (Nat × Str) × List (Nat × Str)),
      Bench.effectiveness (fun q k s => x.ask std ⟨false, q, k⟩ s) (fun q k s => x.ask std' ⟨true, q, k⟩ s) k qs s1 s2 =
        .ok ((A.map (fun a => a.1.length)).sum, (A.map (fun a => a.2.length - (a.1.filter (fun r => decide (r ∈ a.2))).length)).sum) ∧
      All2 (fun q a => Returns x.ask std ⟨false, q, k⟩ a.1 ∧ Returns x.ask std' ⟨true, q, k⟩ a.2) qs A := by
  induction qs generalizing s1 s2 with
  | nil => exact .inr ⟨[], rfl, .nil⟩
  | cons q qs ih =>
      have ha : Ask.Ok ⟨false, q, k⟩ := ⟨hq q (by simp), hk⟩
      have ha' : Ask.Ok ⟨true, q, k⟩ := ⟨hq q (by simp), hk⟩
      obtain ⟨S1, i1, b1, sh1⟩ := type4_prefix_sorted hC hw hb std (hq q (by simp))
      obtain ⟨S2, i2, b2, sh2⟩ := type4_conj_sorted hC hw hb std' (hq q (by simp))
      have o1 := sh1 k hk.1 hk.2 s1 (type4_wf hC hw hb hs1)
      have o1' := sh1 k hk.1 hk.2 Scratch.fresh Scratch.fresh_wf
      have o2 := sh2 k hk.1 hk.2 s2 (type4_wf hC hw hb hs2)
      have o2' := sh2 k hk.1 hk.2 Scratch.fresh Scratch.fresh_wf
      rw [Bench.effectiveness]
      dsimp only
      rcases o1.both o1' with ⟨x, y⟩ | ⟨t1, t1', x1, y1⟩
      · rw [x, M.error_bind]
        exact .inl ⟨rfl, q, by simp, .inl y⟩
      rcases o2.both o2' with ⟨x, y⟩ | ⟨t2, t2', x2, y2⟩
      · rw [x1, M.ok_bind, x, M.error_bind]
        exact .inl ⟨rfl, q, by simp, .inr y⟩
      obtain ⟨w1, e1, p1⟩ := o1.ok x1
      obtain ⟨w2, e2, p2⟩ := o2.ok x2
      have r1' := (o1'.ok y1).2.1
      have r2' := (o2'.ok y2).2.1
      have i1 : ∀ r ∈ S1.take k, r ∈ C := fun r hr => i1 r (List.mem_of_mem_take hr)
      have i2 : ∀ r ∈ S2.take k, r ∈ C := fun r hr => i2 r (List.mem_of_mem_take hr)
      have b1 := b1.sublist (List.take_sublist k S1)
      have b2 := b2.sublist (List.take_sublist k S2)
      have l1 : (S1.take k).length ≤ k := List.length_take_le ..
      have l2 : (S2.take k).length ≤ k := List.length_take_le ..
      generalize S1.take k = E1 at e1 p1 r1' i1 b1 l1
      generalize S2.take k = E2 at e2 p2 r2' i2 b2 l2
      have m1 : MAX_K = 15 := rfl
      obtain ⟨n1, v1⟩ := p1.scores_take (by rw [w1.scores]; omega) e1
      obtain ⟨n2, v2⟩ := p2.scores_take (by rw [w2.scores]; omega) e2
      have hdiff : (setDifference ((E1.map (·.1)).length + (E2.map (·.1)).length + 1) (E2.map (·.1)) (E1.map (·.1))).length =
          (E2.map shown).length - ((E1.map shown).filter (fun r => decide (r ∈ E2.map shown))).length := by
        have h := setDifference_length ((E1.map (·.1)).length + (E2.map (·.1)).length + 1) (E2.map (·.1)) (E1.map (·.1)) (List.pairwise_map.mpr b2)
          (List.pairwise_map.mpr b1) (by simp only [List.length_map]; omega)
        rw [filter_common hC.docs i2 i1] at h
        simp only [List.length_map] at h ⊢
        omega
      rw [x1, M.ok_bind, x2, M.ok_bind]
      rw [v1, v2, n1, hdiff, if_neg (by rw [List.length_map]; omega)]
      rcases ih (fun q hm => hq q (List.mem_cons_of_mem _ hm)) (hs1.step ha x1) (hs2.step ha' x2) with ⟨e, q', hq', f⟩ | ⟨A, e, a⟩
      · rw [e, M.error_bind]
        exact .inl ⟨rfl, q', List.mem_cons_of_mem _ hq', f⟩
      · rw [e, M.ok_bind]
        refine .inr ⟨(E1.map shown, E2.map shown) :: A, ?_, .cons ⟨⟨t1', y1, r1'⟩, ⟨t2', y2, r2'⟩⟩ a⟩
        simp only [List.map_cons, List.sum_cons, List.length_map]

/-- **C58 is false** for type 4: a result of the prefix search that is twice in the results of the conjunctive search is counted, although it is not
better than any. -/
theorem C58_false4 (std std' : StdLib) {k : Nat} (hk : 1 ≤ k ∧ k ≤ 15) (q : Str) (hq : IsText q) {s1 s2 : Scratch}
    (hs1 : Visited x.ask s1) (hs2 : Visited x.ask s2) {res res' : List (Nat × Str)} (h1 : Returns x.ask std ⟨false, q, k⟩ res)
    (h2 : Returns x.ask std' ⟨true, q, k⟩ res') {e : Nat × Str} (he : e ∈ res) (he' : 2 ≤ res'.count e) :
    ∃ a b, Bench.effectiveness (fun q k s => x.ask std ⟨false, q, k⟩ s) (fun q k s => x.ask std' ⟨true, q, k⟩ s) k [q] s1 s2 = .ok (a, b) ∧
      (others res res').length < b := by
  obtain ⟨t1, f1, g1⟩ := h1
  obtain ⟨t2, f2, g2⟩ := h2
  have hsort : (res.map (·.1)).Nodup := by
    obtain ⟨S1, _, b1, sh1⟩ := type4_prefix_sorted hC hw hb std hq
    have := ((sh1 k hk.1 hk.2 Scratch.fresh Scratch.fresh_wf).ok f1).2.1
    rw [g1] at this
    cases this
    rw [List.map_map]
    exact List.Pairwise.map _ (fun _ _ h => Nat.ne_of_lt h) (b1.sublist (List.take_sublist k S1))
  have hnd : res.Nodup := List.Pairwise.of_map _ (fun a b h e => h (by rw [e])) hsort
  rcases C58_type4 hC hw hb std std' hk [q] (by simpa using hq) hs1 hs2 with ⟨_, q', hq', h⟩ | ⟨A, hA, hall⟩
  · have : q' = q := by simpa using hq'
    subst this
    rcases h with h | h
    · rw [f1] at h; cases h
    · rw [f2] at h; cases h
  · cases hall with
    | @cons _ p _ As hp htl =>
        cases htl
        obtain ⟨⟨t, a1, a2⟩, t', a3, a4⟩ := hp
        rw [f1] at a1
        cases a1
        rw [f2] at a3
        cases a3
        rw [g1] at a2
        rw [g2] at a4
        injection a2 with a2
        injection a4 with a4
        refine ⟨_, _, hA, ?_⟩
        simp only [List.map_cons, List.map_nil, List.sum_cons, List.sum_nil, Nat.add_zero, ← a2, ← a4]
        have hsplit : (others res res').length + (res'.filter (fun r => decide (r ∈ res))).length = res'.length := by
          have := length_filter_both (fun r => decide (r ∈ res)) res'
          have e : res'.filter (fun r => !decide (r ∈ res)) = others res res' := by
            unfold others
            exact List.filter_congr (fun r _ => by simp)
          rw [e] at this
          omega
        have hle : (res.filter (fun r => decide (r ∈ res'))).length ≤ ((res'.filter (fun r => decide (r ∈ res))).erase e).length := by
          refine nodup_subset_length' (hnd.filter _) ?_
          intro r hr
          obtain ⟨r1, r2⟩ := List.mem_filter.mp hr
          have r2 := of_decide_eq_true r2
          by_cases hre : r = e
          · subst hre
            rw [← List.count_pos_iff, List.count_erase_self, List.count_filter (by simpa using r1)]
            omega
          · rw [List.mem_erase_of_ne hre]
            exact List.mem_filter.mpr ⟨r2, by simpa using r1⟩
        have hmem : e ∈ res'.filter (fun r => decide (r ∈ res)) := by
          refine List.mem_filter.mpr ⟨?_, by simpa using he⟩
          rw [← List.count_pos_iff]
          omega
        have hpos := List.length_pos_of_mem hmem
        rw [List.length_erase_of_mem hmem] at hle
        omega

end type4

/-- the completions "a", "b a" and "c" with the document ids 1, 0 and 2 -/
def twiceColl : Coll := [(1, [[97]]), (0, [[98], [97]]), (2, [[99]])]

theorem twiceColl_terms (t : Str) : IsTerm twiceColl t ↔ t ∈ [[97], [98], [99]] := by
  simp only [IsTerm, twiceColl, List.mem_cons, List.not_mem_nil, or_false, exists_eq_or_imp, exists_eq_left]
  grind

theorem twiceColl_valid : ValidColl twiceColl :=
  ⟨by decide, by decide, by decide, by decide, by decide, by decide, by decide, by decide, by decide, by decide⟩

theorem twiceColl_suits : Suits4 twiceColl :=
  { terms := ⟨_, twiceColl_valid.ready.numTerms, by decide +kernel⟩
    count := by decide
    doc0 := ⟨(1, [[97]]), by decide, by decide⟩
    ids := by decide }

theorem length_le_counts {α : Type} [BEq α] [LawfulBEq α] {n : Nat} : ∀ {C S : List α}, (∀ r ∈ S, r ∈ C) → (∀ r ∈ C, S.count r ≤ n) → S.length ≤ C.length * n
  | [], S, h, _ => by
      cases S with
      | nil => simp
      | cons r S => exact absurd (h r (by simp)) (by simp)
  | c :: C, S, h, hn => by
      have h1 := length_filter_both (fun r => (r == c)) S
      have h2 : (S.filter (fun r => (r == c))).length ≤ n := by
        have := hn c (by simp)
        rw [List.count_eq_countP, List.countP_eq_length_filter] at this
        exact this
      have h3 := length_le_counts (C := C) (S := S.filter (fun r => !(r == c))) (n := n) (by
          intro r hr
          obtain ⟨r1, r2⟩ := List.mem_filter.mp hr
          have r2 : r ≠ c := by simpa using r2
          exact (List.mem_cons.mp (h r r1)).resolve_left r2) (by
          intro r hr
          exact Nat.le_trans (List.Sublist.count_le _ List.filter_sublist) (hn r (by simp [hr])))
      rw [List.length_cons, Nat.add_mul, Nat.one_mul]
      omega

/-- The hypotheses of `C58_false4` can be met: with blocks of one term, the empty query has the completion "b a" twice in the results of the conjunctive search
and in those of the prefix search. -/
example (mem : Nat → W) (std : StdLib) : ∃ x res res', Index4.build std 1 (Pre.run twiceColl) mem = .ok x ∧
    Returns x.ask std ⟨false, [], 10⟩ res ∧ Returns x.ask std ⟨true, [], 10⟩ res' ∧ (0, [98, 32, 97]) ∈ res ∧ 2 ≤ res'.count (0, [98, 32, 97]) := by
  classical
  obtain ⟨x, B, h1, hB, h2⟩ := C06_exact std twiceColl_valid twiceColl_suits 1 mem
  have hB' : IsBlocks twiceColl 1 [[[97]], [[98]], [[99]]] :=
    ⟨by decide, fun t => by rw [twiceColl_terms]; rfl, by decide, by decide, by decide⟩
  have := C06_blocks_unique hB hB'
  subst this
  have a1 : Ask.Ok ⟨false, [], 10⟩ := ⟨by decide, by decide, by decide⟩
  have a2 : Ask.Ok ⟨true, [], 10⟩ := ⟨by decide, by decide, by decide⟩
  obtain ⟨t, e1⟩ := C36_room4 twiceColl_valid twiceColl_suits h1 std _ a1 (n := 3) (by decide) (by decide) .fresh
  obtain ⟨t', e2⟩ := C36_room4 twiceColl_valid twiceColl_suits h1 std _ a2 (n := 3) (by decide) (by decide) .fresh
  obtain ⟨S, hS, hsh⟩ := h2 [] (by decide)
  have hsh := hsh [] (by decide) rfl (fun _ => Iff.rfl) 10 (by decide) (by decide) Scratch.fresh Scratch.fresh_wf
  have f2 := (hsh.ok e2).2.1
  have hx := (Index4.rep_of_build twiceColl_valid twiceColl_suits.toSuits3 h1)
  obtain ⟨docss, hx⟩ := hx
  obtain ⟨E, b, f1, _⟩ := (Base.prefix_spec std twiceColl_valid.ready hx.base hx.dict hx.built a1.1 a1.2.1 a1.2.2 Scratch.fresh_wf).cases e1
  refine ⟨x, _, _, h1, ⟨t, e1, f1⟩, ⟨t', e2, f2⟩, ?_, ?_⟩
  · have hm : ((0, [[98], [97]]) : Nat × List Str) ∈ E := by
      apply Classical.byContradiction
      intro hn
      obtain ⟨g1, g2⟩ := b.complete (0, [[98], [97]]) (by decide) ⟨⟨[98], ⟨List.nil_prefix, fun _ => .inl rfl⟩, ⟨[[97]], rfl⟩⟩, by
        rintro ⟨d, hd⟩
        revert hd
        simp [twiceColl]⟩ hn
      cases E with
      | nil => simp at g1
      | cons e E => exact absurd (g2 e (by simp)) (by simp)
    exact List.mem_map.mpr ⟨_, hm, rfl⟩
  · obtain ⟨_, hcount⟩ := hS.union (by decide)
    have hlen : S.length ≤ 9 := length_le_counts (C := twiceColl) (n := 3) hS.mem (by
      intro r hr
      rw [hcount r hr]
      exact List.length_filter_le _ _)
    rw [List.take_of_length_le (by omega)]
    have hre : ∀ y, Reaches twiceColl [] y := fun y => ⟨List.nil_prefix, fun _ => Or.inl rfl⟩
    have hl : ∀ y z : Str, IsTerm twiceColl y → IsTerm twiceColl z → y < z → Looked twiceColl [] [y] := fun y z hy hz hyz =>
      ⟨y, List.mem_cons_self .., hy, hre y, Or.inr ⟨z, hz, hre z, hyz⟩⟩
    have l1 := hl [97] [98] ((twiceColl_terms _).mpr (by decide)) ((twiceColl_terms _).mpr (by decide)) (by decide)
    have l2 := hl [98] [99] ((twiceColl_terms _).mpr (by decide)) ((twiceColl_terms _).mpr (by decide)) (by decide)
    have f1 : FoundIn twiceColl [] [[97]] [[98], [97]] := ⟨[97], by decide, by decide, hre _⟩
    have f2 : FoundIn twiceColl [] [[98]] [[98], [97]] := ⟨[98], by decide, by decide, hre _⟩
    have h2c : 2 ≤ copies twiceColl [[[97]], [[98]], [[99]]] [] [[98], [97]] := by
      unfold copies
      rw [List.filter_cons_of_pos (by simp [l1, f1]), List.filter_cons_of_pos (by simp [l2, f2])]
      simp
    have hc := hcount (0, [[98], [97]]) (by decide)
    rw [show lastTerm [] = [] by decide] at hc
    have : S.count (0, [[98], [97]]) ≤ (S.map shown).count (shown (0, [[98], [97]])) := List.count_le_count_map ..
    have e : shown (0, [[98], [97]]) = (0, [98, 32, 97]) := by decide
    rw [e] at this
    dsimp only at hc
    omega

end AC.Props
