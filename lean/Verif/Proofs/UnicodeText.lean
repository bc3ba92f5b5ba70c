import Verif.Proofs.Unicode
/-!
# Texts in UTF-8 between the scripts and the constructors
-/
namespace AC.Py
open Spec

/-! ## Words -/

theorem isBlankChar_eq (c : Char) : isBlankChar c = isBlank c.toNat := by
  have hinj : ∀ (l : List Char), c ∈ l ↔ c.toNat ∈ l.map Char.toNat := by
    intro l
    rw [List.mem_map]
    exact ⟨fun h => ⟨c, h, rfl⟩, fun ⟨d, hd, e⟩ => by rw [← Char.toNat_inj.mp e]; exact hd⟩
  rw [Bool.eq_iff_iff]
  unfold isBlankChar isBlank Pre.isBlank
  rw [decide_eq_true_eq, hinj]
  simp only [List.map_cons, List.map_nil, List.mem_cons, List.not_mem_nil, or_false, Bool.or_eq_true, Bool.and_eq_true, decide_eq_true_eq, beq_iff_eq]
  simp only [show '\t'.toNat = 9 from rfl, show '\n'.toNat = 10 from rfl, show '\x0b'.toNat = 11 from rfl, show '\x0c'.toNat = 12 from rfl,
    show '\r'.toNat = 13 from rfl, show '\x1c'.toNat = 28 from rfl, show '\x1d'.toNat = 29 from rfl, show '\x1e'.toNat = 30 from rfl,
    show '\x1f'.toNat = 31 from rfl, show ' '.toNat = 32 from rfl, show '\u0085'.toNat = 0x85 from rfl, show '\u00a0'.toNat = 0xa0 from rfl,
    show '\u1680'.toNat = 0x1680 from rfl, show '\u2000'.toNat = 0x2000 from rfl, show '\u2001'.toNat = 0x2001 from rfl,
    show '\u2002'.toNat = 0x2002 from rfl, show '\u2003'.toNat = 0x2003 from rfl, show '\u2004'.toNat = 0x2004 from rfl,
    show '\u2005'.toNat = 0x2005 from rfl, show '\u2006'.toNat = 0x2006 from rfl, show '\u2007'.toNat = 0x2007 from rfl,
    show '\u2008'.toNat = 0x2008 from rfl, show '\u2009'.toNat = 0x2009 from rfl, show '\u200a'.toNat = 0x200a from rfl,
    show '\u2028'.toNat = 0x2028 from rfl, show '\u2029'.toNat = 0x2029 from rfl, show '\u202f'.toNat = 0x202f from rfl,
    show '\u205f'.toNat = 0x205f from rfl, show '\u3000'.toNat = 0x3000 from rfl]
  omega

/-- `splitAux` on characters -/
def csplit : List Char → List Char → List (List Char)
  | [], cur => if cur.isEmpty then [] else [cur]
  | c :: r, cur => if isBlankChar c then (if cur.isEmpty then csplit r [] else cur :: csplit r []) else csplit r (cur ++ [c])

theorem codes_isEmpty (s : List Char) : (codes s).isEmpty = s.isEmpty := by cases s <;> rfl

theorem splitAux_codes : ∀ (s cur : List Char), splitAux (codes s) (codes cur) = (csplit s cur).map codes
  | [], cur => by
      show (if (codes cur).isEmpty then [] else [codes cur]) = (if cur.isEmpty then [] else [cur]).map codes
      rw [codes_isEmpty]
      split <;> rfl
  | c :: r, cur => by
      have e : codes (c :: r) = c.toNat :: codes r := rfl
      rw [e]
      unfold splitAux csplit
      rw [isBlankChar_eq, codes_isEmpty, show ([] : Str) = codes [] from rfl, splitAux_codes r []]
      have : codes cur ++ c.toNat :: codes [] = codes (cur ++ [c]) := by simp [codes]
      rw [this, splitAux_codes r (cur ++ [c])]
      split
      · split <;> rfl
      · rfl

theorem csplit_word : ∀ (w R cur : List Char), (∀ b ∈ w, isBlankChar b = false) → csplit (w ++ R) cur = csplit R (cur ++ w)
  | [], R, cur, _ => by simp
  | b :: w, R, cur, h => by
      rw [List.cons_append]
      conv => lhs; unfold csplit
      rw [if_neg (by simp [h b (by simp)]), csplit_word w R _ (fun b hb => h b (List.mem_cons_of_mem _ hb))]
      simp

theorem csplit_gap : ∀ (gap s : List Char), (∀ b ∈ gap, isBlankChar b = true) → csplit (gap ++ s) [] = csplit s []
  | [], _, _ => rfl
  | b :: gap, s, h => by
      rw [List.cons_append]
      conv => lhs; unfold csplit
      rw [if_pos (h b (by simp)), List.isEmpty_nil, if_pos rfl, csplit_gap gap s (fun b hb => h b (List.mem_cons_of_mem _ hb))]

theorem csplit_of_words {s : List Char} {ws : List (List Char)} (h : WordsU isBlankChar s ws) : csplit s [] = ws := by
  induction h with
  | none hg =>
      have := csplit_gap _ [] hg
      rw [List.append_nil] at this
      rw [this]
      rfl
  | @last gap w hg hne hw =>
      have := csplit_word w [] [] hw
      rw [List.append_nil] at this
      rw [csplit_gap _ _ hg, this, List.nil_append]
      unfold csplit
      rw [if_neg (by simp [hne])]
  | @next gap w s b ws hg hne hw hb _ ih =>
      rw [List.append_assoc, csplit_gap _ _ hg, csplit_word _ _ _ hw, List.nil_append]
      conv => lhs; unfold csplit
      rw [if_pos hb, if_neg (by simp [hne]), ih]

theorem words_csplit : ∀ (s cur : List Char), (∀ b ∈ cur, isBlankChar b = false) → WordsU isBlankChar (cur ++ s) (csplit s cur)
  | [], cur, hc => by
      rw [List.append_nil]
      unfold csplit
      split
      · rename_i h
        rw [List.isEmpty_iff] at h
        subst h
        exact .none (by simp)
      · rename_i h
        have : WordsU isBlankChar ([] ++ cur) [cur] := .last (by simp) (by simpa using h) hc
        exact this
  | b :: r, cur, hc => by
      unfold csplit
      split
      · rename_i hb
        have ih := words_csplit r [] (by simp)
        rw [List.nil_append] at ih
        split
        · rename_i h
          rw [List.isEmpty_iff] at h
          subst h
          rw [List.nil_append]
          revert ih
          generalize csplit r [] = ws
          intro ih
          have hgap : ∀ gap : List Char, (∀ b ∈ gap, isBlankChar b = true) → ∀ c ∈ b :: gap, isBlankChar c = true := by
            intro gap hg c hc
            rcases List.mem_cons.mp hc with rfl | hc
            · exact hb
            · exact hg c hc
          cases ih with
          | none hg => exact .none (hgap _ hg)
          | last hg hne hw => exact .last (gap := b :: _) (hgap _ hg) hne hw
          | next hg hne hw hb' hws => exact .next (gap := b :: _) (hgap _ hg) hne hw hb' hws
        · rename_i h
          exact .next (gap := []) (by simp) (by simpa using h) hc hb ih
      · rename_i hb
        have ih := words_csplit r (cur ++ [b]) (by
          intro c hc'
          rw [List.mem_append, List.mem_singleton] at hc'
          rcases hc' with hc' | rfl
          · exact hc c hc'
          · simpa using hb)
        rw [List.append_assoc, List.singleton_append] at ih
        exact ih

theorem split_codes {s : List Char} {ws : List (List Char)} (h : WordsU isBlankChar s ws) : split (codes s) = ws.map codes := by
  have := splitAux_codes s []
  rw [csplit_of_words h] at this
  exact this

/-! ## Lines that are accepted -/

/-- an unusual blank is treated like a space -/
def norm (c : Nat) : Nat := if isBlank c && !Pre.isBlank c then 32 else c

theorem blank_of_pre {c : Nat} (h : Pre.isBlank c = true) : isBlank c = true := by unfold isBlank; rw [h]; simp

theorem splitAux_norm : ∀ (s cur : Str), splitAux s cur = Pre.splitAux (s.map norm) cur
  | [], _ => rfl
  | c :: r, cur => by
      rw [List.map_cons]
      unfold splitAux Pre.splitAux
      have hb : Pre.isBlank (norm c) = isBlank c := by
        unfold norm
        cases h1 : isBlank c <;> cases h2 : Pre.isBlank c
        · simp [h2]
        · rw [blank_of_pre h2] at h1; simp at h1
        · simp [Pre.isBlank]
        · simp [h2]
      rw [hb, splitAux_norm r []]
      cases h1 : isBlank c
      · have : norm c = c := by unfold norm; rw [h1]; rfl
        rw [this, splitAux_norm r (cur ++ [c])]
      · rfl

theorem split_norm (s : Str) : split s = Pre.split (s.map norm) := splitAux_norm s []

theorem splitAux_mem : ∀ (s cur : Str), ∀ w ∈ splitAux s cur, ∀ c ∈ w, c ∈ s ∨ c ∈ cur
  | [], cur, w, hw, c, hc => by
      unfold splitAux at hw
      split at hw
      · simp at hw
      · rw [List.mem_singleton] at hw
        subst hw
        exact Or.inr hc
  | b :: r, cur, w, hw, c, hc => by
      have tl : ∀ w ∈ splitAux r [], ∀ c ∈ w, c ∈ b :: r ∨ c ∈ cur := by
        intro w hw c hc
        rcases splitAux_mem r [] w hw c hc with h | h
        · exact Or.inl (List.mem_cons_of_mem _ h)
        · simp at h
      unfold splitAux at hw
      split at hw
      · split at hw
        · exact tl w hw c hc
        · rcases List.mem_cons.mp hw with rfl | hw
          · exact Or.inr hc
          · exact tl w hw c hc
      · rcases splitAux_mem r (cur ++ [b]) w hw c hc with h | h
        · exact Or.inl (List.mem_cons_of_mem _ h)
        · rw [List.mem_append, List.mem_singleton] at h
          rcases h with h | rfl
          · exact Or.inr h
          · exact Or.inl (by simp)

theorem parseLine_norm (s : Str) : parseLine s = Pre.parseLine (s.map norm) := by
  unfold parseLine Pre.parseLine
  rw [split_norm]
  rfl

theorem parse_good {U : Str} {L : List (Str × Nat × List Str)} (h : parse U = some L) : ∀ l ∈ L, Pre.GoodLine l := by
  intro l hl
  obtain ⟨s, _, hs⟩ := Pre.mapM_mem h l hl
  rw [parseLine_norm] at hs
  exact Pre.parseLine_good hs

theorem newlines_mem : ∀ (s : Str) (cr : Bool), ∀ c ∈ Pre.newlines cr s, c ∈ s ∨ c = 10
  | [], _, _, h => by simp [Pre.newlines] at h
  | b :: r, cr, c, h => by
      have tl : ∀ cr, c ∈ Pre.newlines cr r → c ∈ b :: r ∨ c = 10 := by
        intro cr h
        rcases newlines_mem r cr c h with h | h
        · exact Or.inl (List.mem_cons_of_mem _ h)
        · exact Or.inr h
      unfold Pre.newlines at h
      split at h
      · rcases List.mem_cons.mp h with rfl | h
        · exact Or.inr rfl
        · exact tl _ h
      · split at h
        · exact tl _ h
        · rcases List.mem_cons.mp h with rfl | h
          · exact Or.inl (by simp)
          · exact tl _ h

theorem linesAux_mem : ∀ (s cur : Str), ∀ w ∈ Pre.linesAux s cur, ∀ c ∈ w, c ∈ s ∨ c ∈ cur
  | [], cur, w, hw, c, hc => by
      unfold Pre.linesAux at hw
      split at hw
      · simp at hw
      · rw [List.mem_singleton] at hw
        subst hw
        exact Or.inr hc
  | b :: r, cur, w, hw, c, hc => by
      unfold Pre.linesAux at hw
      split at hw
      · rcases List.mem_cons.mp hw with rfl | hw
        · exact Or.inr hc
        · rcases linesAux_mem r [] w hw c hc with h | h
          · exact Or.inl (List.mem_cons_of_mem _ h)
          · simp at h
      · rcases linesAux_mem r (cur ++ [b]) w hw c hc with h | h
        · exact Or.inl (List.mem_cons_of_mem _ h)
        · rw [List.mem_append, List.mem_singleton] at h
          rcases h with h | rfl
          · exact Or.inr h
          · exact Or.inl (by simp)

/-- the characters of the terms are in the text -/
theorem parse_chars {Q : Nat → Prop} (h10 : Q 10) {U : Str} {L : List (Str × Nat × List Str)} (h : parse U = some L) (hU : ∀ c ∈ U, Q c) :
    ∀ l ∈ L, ∀ t ∈ l.2.2, ∀ c ∈ t, Q c := by
  intro l hl t ht c hc
  obtain ⟨s, hs, he⟩ := Pre.mapM_mem h l hl
  have hw : t ∈ split s := by
    unfold parseLine at he
    revert he
    cases split s with
    | nil => simp
    | cons x ts =>
        intro he
        dsimp only at he
        cases hi : Pre.int? x with
        | none => rw [hi] at he; simp at he
        | some d =>
            rw [hi] at he
            simp only [Option.map_some, Option.some.injEq] at he
            subst he
            exact List.mem_cons_of_mem _ ht
  have h1 : c ∈ s := by
    rcases splitAux_mem s [] t hw c hc with h | h
    · exact h
    · simp at h
  rcases linesAux_mem _ [] s hs c h1 with h | h
  · rcases newlines_mem U false c h with h | rfl
    · exact hU c h
    · exact h10
  · simp at h

theorem parse_scalar {U : Str} {L : List (Str × Nat × List Str)} (h : parse U = some L) (hU : ∀ c ∈ U, Scalar c) :
    ∀ l ∈ L, ∀ t ∈ l.2.2, ∀ c ∈ t, Scalar c := parse_chars (Or.inl (by omega)) h hU

/-! ## The files are in ASCII, except the dictionary -/

theorem digits_ascii {x : Str} (h : x.all isDigit = true) : ∀ c ∈ x, c < 128 := by
  intro c hc
  have := List.all_eq_true.mp h c hc
  rw [isDigit_iff] at this
  omega

theorem dec_ascii (n : Nat) : ∀ c ∈ Pre.dec n, c < 128 := digits_ascii (Pre.dec_digits n)

theorem join_ascii : ∀ {ws : List Str}, (∀ w ∈ ws, ∀ c ∈ w, c < 128) → ∀ c ∈ Pre.join ws, c < 128
  | [], _, c, h => by simp [Pre.join] at h
  | [w], hw, c, h => hw w (by simp) c h
  | w :: w' :: ws, hw, c, h => by
      rw [show Pre.join (w :: w' :: ws) = w ++ 32 :: Pre.join (w' :: ws) from rfl, List.mem_append, List.mem_cons] at h
      rcases h with h | rfl | h
      · exact hw w (by simp) c h
      · decide
      · exact join_ascii (fun x hx => hw x (List.mem_cons_of_mem _ hx)) c h

theorem mappedText_ascii {S : List Str} {L : List (Str × Nat × List Str)} (hL : ∀ l ∈ L, l.1.all isDigit = true) : ∀ c ∈ Pre.mappedText S L, c < 128 := by
  intro c hc
  obtain ⟨l, hl, h⟩ := List.mem_flatMap.mp hc
  rw [List.mem_append, List.mem_singleton] at h
  rcases h with h | rfl
  · refine join_ascii ?_ c h
    intro w hw
    rw [List.mem_append, List.mem_cons, List.mem_singleton] at hw
    rcases hw with (rfl | hw) | rfl
    · exact digits_ascii (hL l hl)
    · obtain ⟨t, _, rfl⟩ := List.mem_map.mp hw
      exact dec_ascii _
    · exact dec_ascii 0
  · decide

theorem decs_ascii {α : Type} (f : α → Nat) (ns : List α) : ∀ c ∈ ns.flatMap (fun n => Pre.dec (f n) ++ [10]), c < 128 := by
  intro c hc
  obtain ⟨n, _, h⟩ := List.mem_flatMap.mp hc
  rw [List.mem_append, List.mem_singleton] at h
  rcases h with h | rfl
  · exact dec_ascii _ c h
  · decide

theorem statsText_ascii {S : List Str} {m : Nat} {text s : Str} (h : Pre.statsText S m text = some s) : ∀ c ∈ s, c < 128 := by
  unfold Pre.statsText at h
  cases hp : Pre.parse text with
  | none => rw [hp] at h; simp at h
  | some L =>
      rw [hp] at h
      simp only [Option.bind_eq_bind, Option.bind_some, Option.some.injEq] at h
      subst h
      intro c hc
      rw [List.mem_append] at hc
      rcases hc with hc | hc
      · exact decs_ascii (fun n => n) _ c hc
      · exact decs_ascii (fun e : Nat × Nat => e.2) _ c hc

theorem listText_ascii (ls : List (List Nat)) : ∀ c ∈ ls.flatMap Pre.listText, c < 128 := by
  intro c hc
  obtain ⟨l, _, h⟩ := List.mem_flatMap.mp hc
  unfold Pre.listText at h
  rw [List.mem_append, List.mem_cons, List.mem_append, List.mem_singleton] at h
  rcases h with h | rfl | h | rfl
  · exact dec_ascii _ c h
  · decide
  · refine join_ascii ?_ c h
    intro w hw
    obtain ⟨n, _, rfl⟩ := List.mem_map.mp hw
    exact dec_ascii n
  · decide

theorem prepareLines_ascii {L : List (Str × Nat × List Str)} (hL : ∀ l ∈ L, l.1.all isDigit = true) {m : Nat} {T : Texts} (h : Pre.prepareLines L m = some T) :
    T.dict = Pre.dictText (Pre.extractDict (Pre.collOf L)) ∧ encode T.mapped = T.mapped ∧ encode T.stats = T.stats ∧ encode T.inverted = T.inverted ∧
      encode T.forward = T.forward := by
  unfold Pre.prepareLines at h
  dsimp only at h
  cases hs : Pre.statsText (Pre.lines (Pre.dictText (Pre.extractDict (Pre.collOf L)))) m
      (Pre.mappedText (Pre.lines (Pre.dictText (Pre.extractDict (Pre.collOf L)))) L) with
  | none => rw [hs] at h; simp at h
  | some s =>
      rw [hs] at h
      simp only [Option.bind_eq_bind, Option.bind_some, Option.some.injEq] at h
      subst h
      exact ⟨rfl, encode_ascii (mappedText_ascii hL), encode_ascii (statsText_ascii hs), encode_ascii (listText_ascii _), encode_ascii (listText_ascii _)⟩

theorem encode_dict (S : List Str) : encode (Pre.dictText S) = Pre.dictText (S.map encode) := by
  induction S with
  | nil => rfl
  | cons t S ih =>
      have e : Pre.dictText (t :: S) = (t ++ [10]) ++ Pre.dictText S := rfl
      have e' : Pre.dictText ((t :: S).map encode) = (encode t ++ [10]) ++ Pre.dictText (S.map encode) := rfl
      rw [e, e', encode_append, encode_append, ih]
      rfl

theorem encode_word {t : Str} (h : Pre.IsWord t) (hs : ∀ c ∈ t, Scalar c) : Pre.IsWord (encode t) := by
  refine ⟨encode_ne h.1, fun b hb => ?_⟩
  rcases (mem_encode hs hb).2 with h' | h'
  · unfold Pre.isBlank
    simp only [Bool.or_eq_false_iff, Bool.and_eq_false_iff, beq_eq_false_iff_ne, decide_eq_false_iff_not]
    omega
  · exact h.2 b h'

theorem maxStringLen_encode {C : Coll} (hne : C ≠ []) : Pre.maxStringLen C ≤ Pre.maxStringLen (Pre.renamed encode C) := by
  obtain ⟨_, r, hr, e⟩ := Pre.maxStringLen_spec hne
  obtain ⟨h, _⟩ := Pre.maxStringLen_spec (C := Pre.renamed encode C) (by simpa [Pre.renamed] using hne)
  have h1 := h (r.1, r.2.map encode) (List.mem_map.mpr ⟨r, hr, rfl⟩)
  have h2 : ∀ ts : List Str, (ts.map List.length).sum ≤ ((ts.map encode).map List.length).sum := by
    intro ts
    induction ts with
    | nil => simp
    | cons t ts ih =>
        have := encode_length t
        simp only [List.map_cons, List.sum_cons] at ih ⊢
        omega
  have := h2 r.2
  dsimp only at h1
  omega

/-- the bytes of the files, when the terms are accepted -/
theorem prepare_eq {X U : Str} {L : List (Str × Nat × List Str)} (hd : decode X = some U) (hp : parse U = some L) {m : Nat}
    (hm : m = Pre.maxStringLen (Pre.collOf L)) :
    prepare X = Pre.prepareLines (Pre.renamedLines encode L) m := by
  have hg := parse_good hp
  have hsc := parse_scalar hp (decode_iff.mp hd).1
  have hw : ∀ t ∈ Pre.extractDict (Pre.collOf L), Pre.IsWord t ∧ ∀ c ∈ t, Scalar c := by
    intro t ht
    obtain ⟨r, hr, ht⟩ := (Pre.mem_extractDict _ t).mp ht
    obtain ⟨l, hl, rfl⟩ := List.mem_map.mp hr
    exact ⟨(hg l hl).terms t ht, hsc l hl t ht⟩
  rw [Pre.prepareLines_renamed (fun s _ t _ h => encode_lt h) (fun t ht => (hw t ht).1.not_newline)
    (fun t ht => (encode_word (hw t ht).1 (hw t ht).2).not_newline)]
  unfold prepare
  rw [hd]
  simp only [Option.bind_eq_bind, Option.bind_some]
  rw [hp]
  simp only [Option.bind_some]
  rw [← hm]
  cases h : Pre.prepareLines L m with
  | none => rfl
  | some T =>
      obtain ⟨h1, h2, h3, h4, h5⟩ := prepareLines_ascii (fun l hl => (hg l hl).digits) h
      simp only [Option.bind_some, Option.map_some]
      rw [h1, h2, h3, h4, h5, encode_dict]

theorem good_renamed {U : Str} {L : List (Str × Nat × List Str)} (hU : ∀ c ∈ U, Scalar c) (hp : parse U = some L) :
    ∀ l ∈ Pre.renamedLines encode L, Pre.GoodLine l := by
  have hg := parse_good hp
  have hsc := parse_scalar hp hU
  intro l' hl'
  obtain ⟨l, hl, rfl⟩ := List.mem_map.mp hl'
  refine ⟨(hg l hl).id, (hg l hl).digits, (hg l hl).num, ?_⟩
  intro t ht
  obtain ⟨w, hw, rfl⟩ := List.mem_map.mp ht
  exact encode_word ((hg l hl).terms w hw) (hsc l hl w hw)

/-- What the scripts write, the constructors read. -/
theorem prepare_read (junk : Nat) {X U : Str} {L : List (Str × Nat × List Str)} (hd : decode X = some U) (hp : parse U = some L)
    (hv : ValidColl (Pre.renamed encode (Pre.collOf L))) :
    ∃ T P, prepare X = some T ∧ Params.load junk T.stats = .ok P ∧ P.numCompl = L.length ∧
      T.read P = .ok { Pre.run (Pre.renamed encode (Pre.collOf L)) with maxLen := Pre.maxStringLen (Pre.collOf L) } ∧
      readSome P.numCompl T.mapped = AC.readAll T.mapped := by
  have hm : Pre.maxStringLen (Pre.collOf L) ≤ MAX_CHARS := by
    have hne : Pre.collOf L ≠ [] := by
      intro e
      apply hv.ne
      rw [e]
      rfl
    refine Nat.le_trans (maxStringLen_encode hne) ?_
    obtain ⟨r, hr, he⟩ := (Pre.maxStringLen_spec hv.ne).2
    rw [← he]
    exact hv.chars r hr
  have := Pre.prepareLines_read junk (good_renamed (decode_iff.mp hd).1 hp) (by rw [Pre.collOf_renamed]; exact hv) hm
  rw [Pre.collOf_renamed] at this
  obtain ⟨T, P, h1, h2, _, h4, h5, h6, _⟩ := this
  refine ⟨T, P, by rw [prepare_eq hd hp rfl]; exact h1, h2, ?_, h5, h6⟩
  rw [h4]
  exact List.length_map ..

/-! ## Texts in ASCII -/

theorem parse_ascii {X : Str} (h : ∀ c ∈ X, c < 128) : parse X = Pre.parse X := by
  have hl : ∀ w ∈ Pre.lines X, parseLine w = Pre.parseLine w := by
    intro w hw
    rw [parseLine_norm]
    congr 1
    conv => rhs; rw [← List.map_id' w]
    apply List.map_congr_left
    intro c hc
    have hc : c < 128 := by
      rcases linesAux_mem _ [] w hw c hc with h' | h'
      · rcases newlines_mem X false c h' with h' | rfl
        · exact h c h'
        · decide
      · simp at h'
    unfold norm
    rw [if_neg]
    unfold isBlank
    simp only [Bool.and_eq_true, Bool.or_eq_true, beq_iff_eq, decide_eq_true_eq, Bool.not_eq_true']
    rintro ⟨h1, h2⟩
    rw [h2] at h1
    simp only [Bool.false_eq_true, false_or] at h1
    omega
  unfold parse Pre.parse
  have : ∀ ws : List Str, (∀ w ∈ ws, parseLine w = Pre.parseLine w) → ws.mapM parseLine = ws.mapM Pre.parseLine := by
    intro ws
    induction ws with
    | nil => intro _; rfl
    | cons w ws ih =>
        intro hw
        rw [List.mapM_cons, List.mapM_cons, hw w (by simp), ih (fun v hv => hw v (by simp [hv]))]
  exact this _ hl

theorem prepare_ascii {X : Str} (h : ∀ c ∈ X, c < 128) : prepare X = Pre.prepare X := by
  have hd : decode X = some X := by
    have := decode_encode (s := X) (fun c hc => Or.inl (by have := h c hc; omega))
    rw [encode_ascii h] at this
    exact this
  unfold prepare Pre.prepare
  rw [hd]
  simp only [Option.bind_eq_bind, Option.bind_some]
  rw [parse_ascii h]
  cases hp : Pre.parse X with
  | none => rfl
  | some L =>
      simp only [Option.bind_some]
      cases hT : Pre.prepareLines L (Pre.maxStringLen (Pre.collOf L)) with
      | none => rfl
      | some T =>
          rw [← parse_ascii h] at hp
          obtain ⟨h1, h2, h3, h4, h5⟩ := prepareLines_ascii (fun l hl => (parse_good hp l hl).digits) hT
          simp only [Option.bind_some]
          rw [h2, h3, h4, h5, h1, encode_ascii]
          · rw [← h1]
          · intro c hc
            obtain ⟨t, ht, hc⟩ := List.mem_flatMap.mp hc
            rw [List.mem_append, List.mem_singleton] at hc
            rcases hc with hc | rfl
            · obtain ⟨r, hr, ht⟩ := (Pre.mem_extractDict _ t).mp ht
              obtain ⟨l, hl, rfl⟩ := List.mem_map.mp hr
              exact parse_chars (Q := (· < 128)) (by decide) hp h l hl t ht c hc
            · decide

/-! ## Texts by lines -/

theorem codes_scalar (s : List Char) : ∀ c ∈ codes s, Scalar c := by
  intro c hc
  obtain ⟨d, _, rfl⟩ := List.mem_map.mp hc
  exact scalar_char d

theorem decode_bytes (s : List Char) : decode (Spec.bytes s) = some (codes s) := by
  rw [← encode_codes]
  exact decode_encode (codes_scalar s)

theorem exists_codes : ∀ {U : Str}, (∀ c ∈ U, Scalar c) → ∃ s : List Char, codes s = U
  | [], _ => ⟨[], rfl⟩
  | c :: U, h => by
      obtain ⟨s, hs⟩ := exists_codes (fun d hd => h d (List.mem_cons_of_mem _ hd))
      have hc : c.isValidChar := by
        have := h c (by simp)
        unfold Scalar at this
        unfold Nat.isValidChar
        omega
      refine ⟨Char.ofNatAux c hc :: s, ?_⟩
      rw [← hs]
      rfl

theorem isDigit_char (c : Char) : isDigit c.toNat = c.isDigit := by
  unfold isDigit Char.isDigit
  rfl

theorem codes_digits {s : List Char} (h : s.all Char.isDigit = true) : (codes s).all isDigit = true := by
  unfold codes
  rw [List.all_map]
  have : (isDigit ∘ Char.toNat) = Char.isDigit := by funext c; exact isDigit_char c
  rw [this]
  exact h

theorem not_mem_codes {c : Char} {s : List Char} (h : c ∉ s) : c.toNat ∉ codes s := by
  intro h'
  obtain ⟨d, hd, e⟩ := List.mem_map.mp h'
  rw [Char.toNat_inj.mp e] at hd
  exact h hd

theorem codes_text (L : List (List Char × List Char × List (List Char))) : codes (Layout.text L) = (L.map (fun l => codes l.1)).flatMap (· ++ [10]) := by
  unfold codes Layout.text
  rw [List.map_flatMap, List.flatMap_map]
  simp only [List.map_append]
  rfl

theorem parse_layout {L : List (List Char × List Char × List (List Char))} (h : Layout L) :
    parse (codes (Layout.text L)) = some (L.map (fun l => (codes l.2.1, num (codes l.2.1), l.2.2.map codes))) := by
  unfold parse
  rw [codes_text, Pre.lines_text]
  · refine Pre.mapM_map (fun l hl => ?_)
    unfold parseLine
    rw [split_codes (h.words l hl), List.map_cons]
    dsimp only
    unfold Pre.int?
    have hne : (codes l.2.1).isEmpty = false := by
      have hw : codes l.2.1 ∈ Pre.split ((codes l.1).map norm) := by
        rw [← split_norm, split_codes (h.words l hl)]
        simp
      have := (Pre.split_words hw).1
      simpa using this
    rw [if_pos (by rw [hne, codes_digits (h.numeral l hl)]; rfl)]
    rfl
  · intro w hw
    obtain ⟨l, hl, rfl⟩ := List.mem_map.mp hw
    exact ⟨not_mem_codes (c := '\n') (h.line l hl).1, not_mem_codes (c := '\r') (h.line l hl).2⟩

theorem coll_layout (L : List (List Char × List Char × List (List Char))) :
    Pre.renamed encode (Pre.collOf (L.map (fun l => (codes l.2.1, num (codes l.2.1), l.2.2.map codes)))) = Layout.coll L := by
  unfold Pre.renamed Pre.collOf Layout.coll
  rw [List.map_map, List.map_map]
  apply List.map_congr_left
  intro l _
  dsimp only [Function.comp]
  rw [List.map_map]
  congr 1
  apply List.map_congr_left
  intro t _
  exact encode_codes t

end AC.Py
