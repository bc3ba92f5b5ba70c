import Verif.Proofs.LongTerms
import Verif.Props.Deploy
/-!
# C62 and C63: texts outside of ASCII

A text is a list of characters; `bytes` are its bytes in UTF-8. `L` lists the lines of the text given to the scripts, each with its numeral and its terms.
-/
namespace AC.Props
open AC Spec Web

/-! ## C62 -/

/-- **C62**: the scripts sort the terms by characters, the indexes compare them by bytes; the two orders are the same, for terms and for completions. -/
theorem C62_order (s t : List Char) : (bytes s < bytes t ↔ codes s < codes t) ∧ (bytes s = bytes t ↔ s = t) := by
  rw [← Py.encode_codes, ← Py.encode_codes]
  refine ⟨Py.encode_lt_iff, fun h => ?_, fun h => by rw [h]⟩
  exact List.map_inj_right (fun a b e => Char.toNat_inj.mp e) |>.mp (Py.encode_inj h)

theorem C62_sorted : ∀ (c d : List (List Char)), c.map bytes < d.map bytes ↔ c.map codes < d.map codes
  | _, [] => by simp [List.not_lt_nil]
  | [], t :: d => ⟨fun _ => List.nil_lt_cons _ _, fun _ => List.nil_lt_cons _ _⟩
  | s :: c, t :: d => by
      simp only [List.map_cons, List.cons_lt_cons_iff]
      obtain ⟨h1, h2⟩ := C62_order s t
      have h3 : codes s = codes t ↔ s = t := List.map_inj_right (fun a b e => Char.toNat_inj.mp e)
      rw [h1, h2, h3, C62_sorted c d]

/-- **C62**: a term begins with the bytes of what was typed exactly if it begins with its characters. -/
theorem C62_prefix : ∀ (p t : List Char), bytes p <+: bytes t ↔ p <+: t
  | [], t => by simp [bytes]
  | c :: p, [] => by
      have := Py.encodeChar_ne c.toNat
      rw [Py.encodeChar_eq] at this
      simp only [bytes, List.flatMap_cons, List.flatMap_nil, List.prefix_nil, List.append_eq_nil_iff, this, false_and, reduceCtorEq]
  | c :: p, d :: t => by
      have ec : ∀ (c : Char) (s : List Char), bytes (c :: s) = Py.encodeChar c.toNat ++ bytes s := by
        intro c s
        rw [Py.encodeChar_eq]
        rfl
      rw [List.cons_prefix_cons, ec, ec]
      constructor
      · rintro ⟨R, hR⟩
        rw [List.append_assoc] at hR
        have h := Py.char?_encode (Py.scalar_char c) (bytes p ++ R)
        rw [hR, Py.char?_encode (Py.scalar_char d)] at h
        simp only [Option.some.injEq, Prod.mk.injEq] at h
        obtain ⟨h1, h2⟩ := h
        exact ⟨(Char.toNat_inj.mp h1).symm, (C62_prefix p t).mp ⟨R, h2.symm⟩⟩
      · rintro ⟨rfl, h⟩
        exact (List.prefix_append_right_inj _).mpr ((C62_prefix p t).mpr h)

/-- The files that the scripts read without an exception are the texts in UTF-8. -/
theorem C62_decode {X U : Str} : Py.decode X = some U ↔ ∃ s : List Char, X = bytes s ∧ U = codes s := by
  constructor
  · intro h
    obtain ⟨h1, h2⟩ := Py.decode_iff.mp h
    obtain ⟨s, rfl⟩ := Py.exists_codes h1
    exact ⟨s, by rw [h2, Py.encode_codes], rfl⟩
  · rintro ⟨s, rfl, rfl⟩
    exact Py.decode_bytes s

/-- A line is accepted only if it consists of a numeral and terms between blanks. -/
theorem C62_accepted {line : List Char} {l : Str × Nat × List Str} (h : Py.parseLine (codes line) = some l) :
    ∃ (n : List Char) (ts : List (List Char)), WordsU isBlankChar line (n :: ts) ∧ l = (codes n, num (codes n), ts.map codes) ∧ n.all Char.isDigit = true := by
  have hw := Py.words_csplit line [] (by simp)
  have hs : Py.split (codes line) = (Py.csplit line []).map codes := Py.splitAux_codes line []
  rw [List.nil_append] at hw
  unfold Py.parseLine at h
  rw [hs] at h
  cases hc : Py.csplit line [] with
  | nil => rw [hc] at h; simp at h
  | cons n ts =>
      rw [hc] at h hw
      rw [List.map_cons] at h
      dsimp only at h
      unfold Pre.int? at h
      by_cases hd : (!(codes n).isEmpty && (codes n).all isDigit) = true
      · rw [if_pos hd] at h
        simp only [Option.map_some, Option.some.injEq] at h
        refine ⟨n, ts, hw, h.symm, ?_⟩
        rw [Bool.and_eq_true] at hd
        have := hd.2
        unfold codes at this
        rw [List.all_map] at this
        have e : (isDigit ∘ Char.toNat) = Char.isDigit := by funext c; exact Py.isDigit_char c
        rw [e] at this
        exact this
      · rw [if_neg hd] at h
        simp at h

theorem maxLen_layout {L : List (List Char × List Char × List (List Char))} (hne : L ≠ []) {m : Nat}
    (hm : m = Pre.maxStringLen (Pre.collOf (L.map (fun l => (codes l.2.1, num (codes l.2.1), l.2.2.map codes))))) :
    (∀ l ∈ L, (l.2.2.map List.length).sum ≤ m) ∧ ∃ l ∈ L, (l.2.2.map List.length).sum = m := by
  obtain ⟨h1, h2⟩ := Pre.maxStringLen_spec (C := Pre.collOf (L.map (fun l => (codes l.2.1, num (codes l.2.1), l.2.2.map codes)))) (by simpa [Pre.collOf] using hne)
  rw [← hm] at h1 h2
  have e : ∀ l : List Char × List Char × List (List Char), ((l.2.2.map codes).map List.length).sum = (l.2.2.map List.length).sum := by
    intro l
    rw [List.map_map]
    congr 1
    apply List.map_congr_left
    intro t _
    exact List.length_map ..
  constructor
  · intro l hl
    rw [← e l]
    exact h1 (num (codes l.2.1), l.2.2.map codes) (List.mem_map.mpr ⟨_, List.mem_map.mpr ⟨l, hl, rfl⟩, rfl⟩)
  · obtain ⟨r, hr, h⟩ := h2
    obtain ⟨x, hx, rfl⟩ := List.mem_map.mp hr
    obtain ⟨l, hl, rfl⟩ := List.mem_map.mp hx
    exact ⟨l, hl, by rw [← e l]; exact h⟩

/-- **C62**: the files that the scripts write for a text in UTF-8 are read as those of the collection of the bytes of the terms, as C43 describes. The
length of the longest completion is in characters. -/
theorem C62_files {L : List (List Char × List Char × List (List Char))} (h : Layout L) (hv : ValidColl (Layout.coll L)) (junk : Nat) :
    ∃ T P m, Py.prepare (bytes (Layout.text L)) = some T ∧ Params.load junk T.stats = .ok P ∧ P.numCompl = L.length ∧
      T.read P = .ok { Pre.run (Layout.coll L) with maxLen := m } ∧ readSome P.numCompl T.mapped = AC.readAll T.mapped ∧
      (∀ l ∈ L, (l.2.2.map List.length).sum ≤ m) ∧ ∃ l ∈ L, (l.2.2.map List.length).sum = m := by
  obtain ⟨T, P, h1, h2, h3, h4, h5⟩ := Py.prepare_read junk (Py.decode_bytes (Layout.text L)) (Py.parse_layout h) (by rw [Py.coll_layout]; exact hv)
  rw [Py.coll_layout] at h4
  rw [List.length_map] at h3
  refine ⟨T, P, _, h1, h2, h3, h4, h5, maxLen_layout ?_ rfl⟩
  intro e
  apply hv.ne
  rw [e]
  rfl

theorem C62_index {α : Type} (build : Files → M α) (hb : ∀ F m, build { F with maxLen := m } = build F) {L : List (List Char × List Char × List (List Char))}
    (h : Layout L) (hv : ValidColl (Layout.coll L)) (junk : Nat) : Py.indexOf build junk (bytes (Layout.text L)) = build (Pre.run (Layout.coll L)) := by
  obtain ⟨T, P, m, h1, h2, _, h4, _⟩ := C62_files h hv junk
  unfold Py.indexOf indexOfTexts
  rw [h1]
  dsimp only
  rw [h2, M.ok_bind, h4, M.ok_bind, hb]

/-- **C62**: from a text in UTF-8, the indexes of types 1, 2 and 3 are built, and are indexes of the collection of its bytes, of which the other properties
speak. -/
theorem C62_serves {L : List (List Char × List Char × List (List Char))} (h : Layout L) (hv : ValidColl (Layout.coll L)) (junk : Nat) (mem : Nat → W) :
    (Suits1 (Layout.coll L) → ∃ x, Py.indexOf (Index1.build · mem) junk (bytes (Layout.text L)) = .ok x ∧ IsIndex (Layout.coll L) x.ask) ∧
    (Suits2 (Layout.coll L) → ∃ x, Py.indexOf (Index2.build · mem) junk (bytes (Layout.text L)) = .ok x ∧ IsIndex (Layout.coll L) x.ask) ∧
    (Suits3 (Layout.coll L) → ∃ x, Py.indexOf (Index3.build · mem) junk (bytes (Layout.text L)) = .ok x ∧ IsIndex (Layout.coll L) x.ask) := by
  refine ⟨fun hw => ?_, fun hw => ?_, fun hw => ?_⟩
  · obtain ⟨x, hx, _⟩ := Index1.exists hv.ready hw mem
    exact ⟨x, by rw [C62_index _ (fun _ _ => rfl) h hv]; exact hx, .type1 hw hx⟩
  · obtain ⟨x, hx, _⟩ := Index2.exists hv.ready hw mem
    exact ⟨x, by rw [C62_index _ (fun _ _ => rfl) h hv]; exact hx, .type2 hw hx⟩
  · obtain ⟨x, hx, _⟩ := Index3.exists hv.ready hw mem
    exact ⟨x, by rw [C62_index _ (fun _ _ => rfl) h hv]; exact hx, .type3 hw hx⟩

/-- the lines with the bytes of the terms, separated by single spaces -/
theorem exists_plain {L : List (List Char × List Char × List (List Char))} (h : Layout L) :
    ∃ X L', Pre.parse X = some L' ∧ Pre.collOf L' = Layout.coll L := by
  have hg := Py.good_renamed (Py.codes_scalar _) (Py.parse_layout h)
  let K := Pre.renamedLines Py.encode (L.map (fun l => (codes l.2.1, num (codes l.2.1), l.2.2.map codes)))
  refine ⟨(K.map (fun l => l.1 :: l.2.2)).flatMap (fun ws => Pre.join ws ++ [10]), K, ?_, ?_⟩
  · unfold Pre.parse
    rw [Pre.lines_join, List.map_map]
    · have := Pre.mapM_map (l := K) (g := fun l => Pre.join (l.1 :: l.2.2)) (k := fun l => l) (f := Pre.parseLine) (fun l hl => by
        rw [Pre.parseLine_join (hg l hl).id (hg l hl).digits (hg l hl).terms, (hg l hl).num])
      rw [List.map_id'] at this
      exact this
    · intro ws hws w hw
      obtain ⟨l, hl, rfl⟩ := List.mem_map.mp hws
      rcases List.mem_cons.mp hw with rfl | hw
      · exact (hg l hl).id
      · exact (hg l hl).terms w hw
  · rw [Pre.collOf_renamed, Py.coll_layout]

theorem C62_program {α : Type} (build : Files → M α) (print : α → M (List Nat)) (visit : {σ : Type} → Visitor σ → α → σ → M (α × σ))
    (hb : ∀ F m, build { F with maxLen := m } = build F) {L : List (List Char × List Char × List (List Char))} (h : Layout L)
    (hv : ValidColl (Layout.coll L)) {X : Str} {L' : List (Str × Nat × List Str)} (hp : Pre.parse X = some L') (hc : Pre.collOf L' = Layout.coll L) (junk : Nat) :
    Py.buildProgram build print visit junk (bytes (Layout.text L)) = buildProgram build print visit junk X := by
  have e1 := C62_index build hb h hv junk
  have e2 := C48_index build hp (by rw [hc]; exact hv) junk
  rw [hc] at e2
  rw [buildProgram_eq, e2]
  unfold Py.buildProgram buildProgramOf
  unfold Py.indexOf at e1
  rw [e1]

/-- **C62**: C61 for texts in UTF-8: the index file, the numbers printed and the responses of the server are functions of the text and the requests. -/
theorem C62_server {L : List (List Char × List Char × List (List Char))} (h : Layout L) (hv : ValidColl (Layout.coll L)) (hw : Suits1 (Layout.coll L)) :
    ∃ out file, (∀ junk mem, Py.buildProgram (Index1.build · mem) Index1.printed (fun V => V.index1) junk (bytes (Layout.text L)) = .ok (out, file)) ∧
      (∀ mem', statsProgram Index1.printed (fun V => V.index1) (Index1.blank mem') file = .ok out) ∧
      (∀ std std' mem mem' rs, (∀ r ∈ rs, OkRequest r) → Web.main std mem file rs = Web.main std' mem' file rs) ∧
      (∀ std mem rs us, (∀ r ∈ rs, OkRequest r) → (∀ r ∈ us, OkRequest r) →
        Web.main std mem file (rs ++ us) = (do
          let a ← Web.main std mem file rs
          let b ← Web.main std mem file us
          .ok (a ++ b))) := by
  obtain ⟨X, L', hp, hc⟩ := exists_plain h
  rw [← hc] at hw
  have hv' := hv
  rw [← hc] at hv'
  obtain ⟨out, file, h1, h2, h3⟩ := C61_server hp hv' hw
  obtain ⟨out', file', g1, g2⟩ := C61_build1 hp hv' hw
  have e := (h1 0 (fun _ => 0)).symm.trans (g1 0 (fun _ => 0))
  cases e
  refine ⟨out, file, fun junk mem => ?_, g2, h2, h3⟩
  rw [C62_program (Index1.build · mem) _ _ (fun _ _ => rfl) h hv hp hc]
  exact h1 junk mem

/-- **C62**, the programs for types 2, 3 and 4 -/
theorem C62_build {L : List (List Char × List Char × List (List Char))} (h : Layout L) (hv : ValidColl (Layout.coll L)) :
    (Suits2 (Layout.coll L) → ∃ out file,
      (∀ junk mem, Py.buildProgram (Index2.build · mem) Index2.printed (fun V => V.index2) junk (bytes (Layout.text L)) = .ok (out, file)) ∧
      ∀ mem', statsProgram Index2.printed (fun V => V.index2) (Index2.blank mem') file = .ok out) ∧
    (Suits3 (Layout.coll L) → ∃ out file,
      (∀ junk mem, Py.buildProgram (Index3.build · mem) Index3.printed (fun V => V.index3) junk (bytes (Layout.text L)) = .ok (out, file)) ∧
      ∀ mem', statsProgram Index3.printed (fun V => V.index3) (Index3.blank mem') file = .ok out) ∧
    (Suits4 (Layout.coll L) → ∀ (std : StdLib) (c : Nat), 0 < c → c ≤ 2 ^ 149 → ∃ out file,
      (∀ std' junk mem, Py.buildProgram (Index4.buildC std' c · mem) Index4.printed (fun V => V.index4) junk (bytes (Layout.text L)) = .ok (out, file)) ∧
      ∀ mem', statsProgram Index4.printed (fun V => V.index4) (Index4.blank mem') file = .ok out) := by
  obtain ⟨X, L', hp, hc⟩ := exists_plain h
  have hv' := hv
  rw [← hc] at hv'
  refine ⟨fun hw => ?_, fun hw => ?_, fun hw std c hc1 hc2 => ?_⟩
  · rw [← hc] at hw
    obtain ⟨out, file, h1, h2⟩ := C61_build2 hp hv' hw
    refine ⟨out, file, fun junk mem => ?_, h2⟩
    rw [C62_program (Index2.build · mem) _ _ (fun _ _ => rfl) h hv hp hc]
    exact h1 junk mem
  · rw [← hc] at hw
    obtain ⟨out, file, h1, h2⟩ := C61_build3 hp hv' hw
    refine ⟨out, file, fun junk mem => ?_, h2⟩
    rw [C62_program (Index3.build · mem) _ _ (fun _ _ => rfl) h hv hp hc]
    exact h1 junk mem
  · rw [← hc] at hw
    obtain ⟨out, file, h1, h2⟩ := C61_build4 hp hv' hw std hc1 hc2
    refine ⟨out, file, fun std' junk mem => ?_, h2⟩
    rw [C62_program (Index4.buildC std' c · mem) _ _ (fun _ _ => rfl) h hv hp hc]
    exact h1 std' junk mem

/-- For texts in ASCII, the scripts are those of C48. -/
theorem C62_ascii {X : Str} (h : ∀ c ∈ X, c < 128) : Py.prepare X = Pre.prepare X := Py.prepare_ascii h

/-- the text "4 \u00e9 b", "2 \u00e9\u2003\u65e5\u672c", "0 b" (an em space between the terms of the second), "7 b \u00e9", "5 😀" -/
def sampleUnicode : List (List Char × List Char × List (List Char)) :=
  [("0 b".toList, ['0'], [['b']]), ("7 b \u00e9".toList, ['7'], [['b'], ['\u00e9']]), ("4 \u00e9 b ".toList, ['4'], [['\u00e9'], ['b']]),
   ("\t2 \u00e9\u2003\u65e5\u672c".toList, ['2'], [['\u00e9'], ['\u65e5', '\u672c']]), ("5\u3000😀".toList, ['5'], [['😀']])]

theorem layout_of {L : List (List Char × List Char × List (List Char))}
    (h : ∀ l ∈ L, Py.csplit l.1 [] = l.2.1 :: l.2.2 ∧ l.2.1.all Char.isDigit = true ∧ '\n' ∉ l.1 ∧ '\r' ∉ l.1) : Layout L := by
  refine ⟨fun l hl => ?_, fun l hl => (h l hl).2.1, fun l hl => (h l hl).2.2⟩
  have := Py.words_csplit l.1 [] (by simp)
  rw [(h l hl).1] at this
  exact this

theorem sampleUnicode_layout : Layout sampleUnicode := layout_of (by decide +kernel)

/-- its collection: the bytes -/
theorem sampleUnicode_coll : Layout.coll sampleUnicode =
    [(0, [[98]]), (7, [[98], [195, 169]]), (4, [[195, 169], [98]]), (2, [[195, 169], [230, 151, 165, 230, 156, 172]]), (5, [[240, 159, 152, 128]])] := by
  decide +kernel

theorem sampleUnicode_valid : ValidColl (Layout.coll sampleUnicode) := by
  rw [sampleUnicode_coll]
  exact ⟨by decide, by decide, by decide, by decide, by decide, by decide, by decide, by decide, by decide, by decide⟩

theorem sampleUnicode_suits : Suits2 (Layout.coll sampleUnicode) :=
  { terms := ⟨_, sampleUnicode_valid.ready.numTerms, by decide +kernel⟩
    doc0 := ⟨[195, 169], ⟨(4, [[195, 169], [98]]), by decide +kernel, by decide⟩, by
      intro c hc
      rw [sampleUnicode_coll] at hc
      simp only [List.mem_cons, Prod.mk.injEq, List.not_mem_nil, or_false] at hc
      rcases hc with ⟨_, rfl⟩ | ⟨h, _⟩ | ⟨h, _⟩ | ⟨h, _⟩ | ⟨h, _⟩ <;> first | decide | (exfalso; omega)⟩
    count := by decide +kernel }

/-- the longest completions of the sample have three characters, though more bytes -/
example : ∃ T P, Py.prepare (bytes (Layout.text sampleUnicode)) = some T ∧ Params.load 77 T.stats = .ok P ∧ P.numCompl = 5 ∧
    T.read P = .ok { Pre.run (Layout.coll sampleUnicode) with maxLen := 3 } := by
  obtain ⟨T, P, m, h1, h2, h3, h4, _, h5, h6⟩ := C62_files sampleUnicode_layout sampleUnicode_valid 77
  have : m = 3 := by
    obtain ⟨l, hl, e⟩ := h6
    have a1 := h5 ("\t2 \u00e9\u2003\u65e5\u672c".toList, ['2'], [['\u00e9'], ['\u65e5', '\u672c']]) (by decide +kernel)
    have a2 : ∀ l ∈ sampleUnicode, (l.2.2.map List.length).sum ≤ 3 := by decide +kernel
    have := a2 l hl
    change 3 ≤ m at a1
    omega
  subst this
  exact ⟨T, P, h1, h2, h3, h4⟩

example : ∃ x, Py.indexOf (Index1.build · (fun _ => 0)) 0 (bytes (Layout.text sampleUnicode)) = .ok x ∧ IsIndex (Layout.coll sampleUnicode) x.ask :=
  (C62_serves sampleUnicode_layout sampleUnicode_valid 0 (fun _ => 0)).1 sampleUnicode_suits.toSuits1

/-- a request for "b \u00e9" -/
example : ∃ out file, (∀ junk mem, Py.buildProgram (Index1.build · mem) Index1.printed (fun V => V.index1) junk (bytes (Layout.text sampleUnicode)) =
      .ok (out, file)) ∧
    ∀ std std' mem mem', Web.main std mem file [(some (bytes "b \u00e9".toList), none)] = Web.main std' mem' file [(some (bytes "b \u00e9".toList), none)] := by
  obtain ⟨out, file, h1, _, h2, _⟩ := C62_server sampleUnicode_layout sampleUnicode_valid sampleUnicode_suits.toSuits1
  refine ⟨out, file, h1, fun std std' mem mem' => h2 std std' mem mem' _ ?_⟩
  intro r hr
  rw [List.mem_singleton] at hr
  subst hr
  refine ⟨by decide +kernel, fun k hk => ?_⟩
  cases (show requestedK none = .ok 10 from rfl).symm.trans hk
  decide

/-- the byte 233 alone (e acute in Latin-1) is not a text in UTF-8 -/
example : Py.decode [52, 32, 233, 10] = none := by decide +kernel

example : bytes ['\u65e5'] <+: bytes ['\u65e5', '\u672c'] := (C62_prefix _ _).mpr (by decide)

/-- the sample of C48 is in ASCII -/
example : Py.prepare sampleText = Pre.prepare sampleText := C62_ascii (by decide)

/-! ## C63 -/

/-- C63 is false: the limit of 128 on the length of completions is checked in characters, and the arrays have room for 256 bytes. For every text
whose collection is as required except for the lengths in bytes (with at most 16 terms, no completion over 128 characters), whose first term has more than 256
bytes, the index is built, and every search for a word writes out of bounds. -/
theorem C63_false {L : List (List Char × List Char × List (List Char))} (h : Layout L) (hv : ValidShape (Layout.coll L)) (hw : Suits1 (Layout.coll L))
    {n : Nat} (hn : NumTerms (Layout.coll L) n) (hn' : n ≤ 16) (h128 : ∀ l ∈ L, (l.2.2.map List.length).sum ≤ 128) {x : Str}
    (hx : IsFirstTerm (Layout.coll L) x) (h256 : 256 < x.length) (hx32 : x.length < 2 ^ 32) (junk : Nat) (mem : Nat → W) :
    ∃ i, Py.indexOf (Index1.build · mem) junk (bytes (Layout.text L)) = .ok i ∧
      ∀ (std : StdLib) (q : Str) (k : Nat) (s : Scratch), s.WF → q ≠ [] → 32 ∉ q →
        i.prefixTopk std q k s = .error .oob ∧ i.conjTopk std q k s = .error .oob := by
  have hmem : ∀ t, t ∈ Pre.extractDict (Layout.coll L) ↔ IsTerm (Layout.coll L) t := Pre.mem_extractDict _
  have hsorted := Pre.extractDict_sorted (Layout.coll L)
  have hlen : (Pre.extractDict (Layout.coll L)).length = n := by
    obtain ⟨S, h1, h2, rfl⟩ := hn
    refine ((List.perm_ext_iff_of_nodup (hsorted.imp (fun h e => absurd (e ▸ h) (List.lt_irrefl _))) h1).mpr (fun t => ?_)).length_eq
    rw [hmem, h2]
  obtain ⟨ss, he⟩ : ∃ ss, Pre.extractDict (Layout.coll L) = x :: ss := by
    cases he : Pre.extractDict (Layout.coll L) with
    | nil =>
        have := (hmem x).mpr hx.1
        rw [he] at this
        simp at this
    | cons y ss =>
        have hy : y = x := by
          rw [he] at hsorted
          have hm := (hmem x).mpr hx.1
          rw [he] at hm
          rcases List.mem_cons.mp hm with e | hm
          · exact e.symm
          · exact absurd ((List.pairwise_cons.mp hsorted).1 x hm) (hx.2 y ((hmem y).mp (by rw [he]; simp)))
        exact ⟨ss, by rw [hy]⟩
  rw [he, List.length_cons] at hlen
  have hne : L ≠ [] := by
    intro e
    apply hv.ne
    rw [e]
    rfl
  have hd := Py.decode_bytes (Layout.text L)
  have hp := Py.parse_layout h
  have hg := Py.good_renamed (Py.codes_scalar _) hp
  have hprep := Py.prepare_eq hd hp rfl
  obtain ⟨_, l, hl, hm⟩ := maxLen_layout hne rfl
  have hm' := h128 l hl
  rw [hm] at hm'
  obtain ⟨T, P, h1, h2, h3⟩ := Pre.prepareLines_shape junk hg (by rw [Pre.collOf_renamed, Py.coll_layout]; exact hv)
    (by rw [Pre.collOf_renamed, Py.coll_layout, he, List.length_cons]; omega) hm'
  rw [Pre.collOf_renamed, Py.coll_layout] at h3
  obtain ⟨i, hi, hi1, hi2⟩ := Index1.build_long hv hw he (by omega) hx32 _ mem
  refine ⟨i, ?_, ?_⟩
  · unfold Py.indexOf indexOfTexts
    rw [hprep, h1]
    dsimp only
    rw [h2, M.ok_bind, h3, M.ok_bind]
    exact hi
  · intro std q k s hs hq h32
    unfold Index1.prefixTopk Index1.conjTopk
    rw [analyse_long hi1 hi2 h256 hq h32 _ hs, analyse_long hi1 hi2 h256 hq h32 _ hs, M.error_bind, M.error_bind]
    exact ⟨rfl, rfl⟩

/-- **C63** (partly): a text with a completion of more than 128 characters is rejected. A text in ASCII is rejected exactly if a completion has more than 128
bytes, and else the searches are answered. Missing from the claim: characters outside of ASCII (`C63_false`). -/
theorem C63_partial {L : List (List Char × List Char × List (List Char))} (h : Layout L) (hv : ValidShape (Layout.coll L))
    (hlt : ∀ l ∈ L, (l.2.2.map List.length).sum < 2 ^ 32) (junk : Nat) :
    ((∃ l ∈ L, 128 < (l.2.2.map List.length).sum) → ∀ {α : Type} (build : Files → M α), Py.indexOf build junk (bytes (Layout.text L)) = .error .thrown) ∧
    ((∀ l ∈ L, ∀ t ∈ l.2.2, ∀ c ∈ t, 0 < c.toNat ∧ c.toNat < 128) → (∀ l ∈ L, (l.2.2.map List.length).sum ≤ 128) →
      (((Layout.coll L).flatMap (·.2)).map (fun t => t.length + 2)).sum < 2 ^ 32 → Suits1 (Layout.coll L) →
      ∀ mem, ∃ x, Py.indexOf (Index1.build · mem) junk (bytes (Layout.text L)) = .ok x ∧ IsIndex (Layout.coll L) x.ask) := by
  have hne : L ≠ [] := by
    intro e
    apply hv.ne
    rw [e]
    rfl
  have hp := Py.parse_layout h
  have hg := Py.good_renamed (Py.codes_scalar _) hp
  refine ⟨?_, ?_⟩
  · rintro ⟨l, hl, h128⟩ α build
    obtain ⟨hle, l', hl', hm⟩ := maxLen_layout hne rfl
    have hsz : (Pre.extractDict (Layout.coll L)).length ≤ ((Layout.coll L).flatMap (·.2)).length := by
      refine nodup_subset_length' ((Pre.extractDict_sorted _).imp (fun h e => absurd (e ▸ h) (List.lt_irrefl _))) (fun t ht => ?_)
      obtain ⟨r, hr, ht⟩ := (Pre.mem_extractDict _ t).mp ht
      exact List.mem_flatMap.mpr ⟨r, hr, ht⟩
    have := hv.size
    unfold Py.indexOf
    rw [Py.prepare_eq (Py.decode_bytes (Layout.text L)) hp rfl]
    exact indexOfTexts_reject build junk hg (by rw [Pre.collOf_renamed, Py.coll_layout]; omega) (Nat.lt_of_lt_of_le h128 (hle l hl)) (by rw [← hm]; exact hlt l' hl')
  · intro hascii h128 hroom hw mem
    have hb : ∀ t : List Char, (∀ c ∈ t, 0 < c.toNat ∧ c.toNat < 128) → bytes t = codes t := by
      intro t ht
      rw [← Py.encode_codes, Py.encode_ascii]
      intro c hc
      obtain ⟨d, hd, rfl⟩ := List.mem_map.mp hc
      exact (ht d hd).2
    refine (C62_serves h ?_ junk mem).1 hw
    refine ⟨hv.ne, hv.docs, hv.sorted, hv.nonempty, ?_, hv.short, ?_, hv.ids, hv.size, hroom⟩
    · intro r hr t ht
      obtain ⟨l, hl, rfl⟩ := List.mem_map.mp hr
      obtain ⟨w, hw, rfl⟩ := List.mem_map.mp ht
      have hword : Pre.IsWord (bytes w) := by
        have := hg (codes l.2.1, num (codes l.2.1), (l.2.2.map codes).map Py.encode) (List.mem_map.mpr ⟨_, List.mem_map.mpr ⟨l, hl, rfl⟩, rfl⟩)
        exact this.terms _ (List.mem_map.mpr ⟨codes w, List.mem_map.mpr ⟨w, hw, rfl⟩, Py.encode_codes w⟩)
      refine ⟨hword.1, ?_, fun h => absurd (hword.not_space _ h) (by decide)⟩
      intro b hb'
      rw [hb w (hascii l hl w hw)] at hb'
      obtain ⟨d, hd, rfl⟩ := List.mem_map.mp hb'
      have := hascii l hl w hw d hd
      omega
    · intro r hr
      obtain ⟨l, hl, rfl⟩ := List.mem_map.mp hr
      have : (l.2.2.map bytes).map List.length = l.2.2.map List.length := by
        rw [List.map_map]
        apply List.map_congr_left
        intro t ht
        dsimp only [Function.comp]
        rw [hb t (hascii l hl t ht)]
        exact List.length_map ..
      dsimp only
      rw [this]
      exact h128 l hl

/-- two completions: a term of 86 characters, and this term and another -/
def longTerm : List Char := List.replicate 86 '\u65e5'
def longText : List (List Char × List Char × List (List Char)) :=
  [("1 ".toList ++ longTerm, ['1'], [longTerm]), ("2 ".toList ++ longTerm ++ [' ', '\u672c'], ['2'], [longTerm, ['\u672c']])]

theorem longText_layout : Layout longText := layout_of (by decide +kernel)

theorem longText_shape : ValidShape (Layout.coll longText) :=
  ⟨by decide +kernel, by decide +kernel, by decide +kernel, by decide +kernel, by decide +kernel, by decide +kernel, by decide +kernel⟩

theorem longText_terms (t : Str) : IsTerm (Layout.coll longText) t ↔ t = bytes longTerm ∨ t = bytes ['\u672c'] := by
  constructor
  · rintro ⟨r, hr, ht⟩
    have : ∀ r ∈ Layout.coll longText, ∀ t ∈ r.2, t = bytes longTerm ∨ t = bytes ['\u672c'] := by decide +kernel
    exact this r hr t ht
  · rintro (rfl | rfl)
    · exact ⟨(2, [bytes longTerm, bytes ['\u672c']]), by decide +kernel, by simp⟩
    · exact ⟨(2, [bytes longTerm, bytes ['\u672c']]), by decide +kernel, by simp⟩

theorem longText_numTerms : NumTerms (Layout.coll longText) 2 :=
  ⟨[bytes longTerm, bytes ['\u672c']], by decide +kernel, fun t => by rw [longText_terms]; simp, rfl⟩

/-- C63 fails for these two completions: whatever word is typed -/
example (junk : Nat) (mem : Nat → W) (std : StdLib) (q : Str) (k : Nat) (s : Scratch) (hs : s.WF) (hq : q ≠ []) (h32 : 32 ∉ q) :
    ∃ i, Py.indexOf (Index1.build · mem) junk (bytes (Layout.text longText)) = .ok i ∧ i.conjTopk std q k s = .error .oob := by
  have hsuits : Suits1 (Layout.coll longText) := by
    refine ⟨⟨2, longText_numTerms, by decide⟩, ⟨_, (longText_terms _).mpr (Or.inl rfl), fun c hc => ?_⟩⟩
    have : ∀ r ∈ Layout.coll longText, r.1 ≠ 0 := by decide +kernel
    exact absurd rfl (this _ hc)
  have hfirst : IsFirstTerm (Layout.coll longText) (bytes longTerm) := by
    refine ⟨(longText_terms _).mpr (Or.inl rfl), fun t ht => ?_⟩
    rcases (longText_terms t).mp ht with rfl | rfl
    · exact List.lt_irrefl _
    · decide +kernel
  obtain ⟨i, h1, h2⟩ := C63_false longText_layout longText_shape hsuits longText_numTerms (by decide) (by decide +kernel) hfirst (by decide +kernel) (by decide +kernel)
    junk mem
  exact ⟨i, h1, (h2 std q k s hs hq h32).2⟩

/-- a line with a term of 129 characters is rejected -/
example : Py.indexOf (Index1.build · (fun _ => 0)) 0 (bytes (Layout.text [("1 ".toList ++ List.replicate 129 '\u00e9', ['1'], [List.replicate 129 '\u00e9'])])) =
    .error .thrown := by
  refine (C63_partial (layout_of (by decide +kernel)) ⟨by decide +kernel, by decide +kernel, by decide +kernel, by decide +kernel, by decide +kernel,
    by decide +kernel, by decide +kernel⟩ (by decide +kernel) 0).1 ?_ _
  exact ⟨_, List.mem_singleton.mpr rfl, by decide +kernel⟩

/-- a line with a term of 128 letters is not -/
example : ∃ x, Py.indexOf (Index1.build · (fun _ => 0)) 0 (bytes (Layout.text [("1 ".toList ++ List.replicate 128 'a', ['1'], [List.replicate 128 'a'])])) = .ok x ∧
    IsIndex (Layout.coll [("1 ".toList ++ List.replicate 128 'a', ['1'], [List.replicate 128 'a'])]) x.ask := by
  refine (C63_partial (layout_of (by decide +kernel)) ⟨by decide +kernel, by decide +kernel, by decide +kernel, by decide +kernel, by decide +kernel,
    by decide +kernel, by decide +kernel⟩ (by decide +kernel) 0).2 (by decide +kernel) (by decide +kernel) (by decide +kernel) ?_ _
  have ht : ∀ t, IsTerm (Layout.coll [("1 ".toList ++ List.replicate 128 'a', ['1'], [List.replicate 128 'a'])]) t ↔ t = List.replicate 128 97 := by
    intro t
    have e : Layout.coll [("1 ".toList ++ List.replicate 128 'a', ['1'], [List.replicate 128 'a'])] = [(1, [List.replicate 128 97])] := by decide +kernel
    rw [e]
    simp [IsTerm]
  refine ⟨⟨1, ⟨[List.replicate 128 97], by simp, fun t => by rw [ht]; simp, rfl⟩, by decide⟩, ⟨List.replicate 128 97, (ht _).mpr rfl, fun c hc => ?_⟩⟩
  have : ∀ r ∈ Layout.coll [("1 ".toList ++ List.replicate 128 'a', ['1'], [List.replicate 128 'a'])], r.1 ≠ 0 := by decide +kernel
  exact absurd rfl (this _ hc)

end AC.Props
