import Verif.Model.Text
import Verif.Spec.Text
import Verif.Proofs.Collection
/-!
# Reading and writing text files
-/
namespace AC
open Spec

/-! ## Numbers -/

theorem num_snoc (ds : Str) (b : Nat) : num (ds ++ [b]) = 10 * num ds + (b - 48) := by
  unfold num
  rw [List.foldl_append]
  rfl

theorem isDigit_iff {b : Nat} : isDigit b = true ↔ 48 ≤ b ∧ b ≤ 57 := by
  unfold isDigit
  simp

theorem digit_not_space {b : Nat} (h : isDigit b = true) : isSpace b = false := by
  rw [isDigit_iff] at h
  unfold isSpace
  simp
  omega

namespace Pre

theorem decF_spec : ∀ (f n : Nat), n < f → num (decF f n) = n ∧ (decF f n).all isDigit = true ∧ decF f n ≠ []
  | 0, n, h => absurd h (Nat.not_lt_zero _)
  | f + 1, n, h => by
      unfold decF
      split
      · rename_i h10
        refine ⟨?_, ?_, by simp⟩
        · unfold num
          simp
        · simp [isDigit]
          omega
      · rename_i h10
        obtain ⟨a, b, c⟩ := decF_spec f (n / 10) (by omega)
        refine ⟨?_, ?_, by simp⟩
        · rw [num_snoc, a]
          omega
        · rw [List.all_append, b]
          simp [isDigit]
          omega

theorem num_dec (n : Nat) : num (dec n) = n := (decF_spec (n + 1) n (Nat.lt_succ_self n)).1
theorem dec_digits (n : Nat) : (dec n).all isDigit = true := (decF_spec (n + 1) n (Nat.lt_succ_self n)).2.1
theorem dec_ne (n : Nat) : dec n ≠ [] := (decF_spec (n + 1) n (Nat.lt_succ_self n)).2.2
theorem dec_inj {m n : Nat} (h : dec m = dec n) : m = n := by rw [← num_dec m, h, num_dec]

end Pre
open Pre

/-! ## Extraction -/

/-- nothing, or a character that is not a digit -/
def EndsNum : Str → Prop
  | [] => True
  | b :: _ => isDigit b = false

/-- nothing, or a whitespace character -/
def EndsWord : Str → Prop
  | [] => True
  | b :: _ => isSpace b = true

theorem dropWhile_all {p : Nat → Bool} : ∀ (w : Str) {s : Str}, w.all p = true → (w ++ s).dropWhile p = s.dropWhile p
  | [], _, _ => rfl
  | b :: w, s, h => by
      rw [List.all_cons, Bool.and_eq_true] at h
      rw [List.cons_append, List.dropWhile_cons_of_pos h.1]
      exact dropWhile_all w h.2

theorem span_all {p : Nat → Bool} : ∀ (w : Str) {s : Str}, w.all p = true → (match s with | [] => True | b :: _ => p b = false) →
    (w ++ s).takeWhile p = w ∧ (w ++ s).dropWhile p = s
  | [], [], _, _ => ⟨rfl, rfl⟩
  | [], b :: s, _, h => by
      rw [List.nil_append, List.takeWhile_cons_of_neg (by simp [h]), List.dropWhile_cons_of_neg (by simp [h])]
      exact ⟨rfl, rfl⟩
  | b :: w, s, h, h' => by
      rw [List.all_cons, Bool.and_eq_true] at h
      obtain ⟨h1, h2⟩ := span_all w h.2 h'
      rw [List.cons_append, List.takeWhile_cons_of_pos h.1, List.dropWhile_cons_of_pos h.1, h1, h2]
      exact ⟨rfl, rfl⟩

theorem Stream.sentry_skip {w : Str} (hw : w.all isSpace = true) {b : Nat} (hb : isSpace b = false) (r : Str) :
    Stream.sentry ⟨w ++ b :: r, false, false⟩ = ⟨b :: r, false, false⟩ := by
  unfold Stream.sentry
  rw [if_neg (by simp)]
  dsimp only
  rw [dropWhile_all w hw, List.dropWhile_cons_of_neg (by simp [hb])]

theorem Stream.sentry_end {w : Str} (hw : w.all isSpace = true) : Stream.sentry ⟨w, false, false⟩ = ⟨[], true, true⟩ := by
  unfold Stream.sentry
  rw [if_neg (by simp)]
  dsimp only
  have := dropWhile_all (s := []) w hw
  rw [List.append_nil] at this
  rw [this]
  rfl

/-- reading a number -/
theorem Stream.getU32_num (old : Nat) {w ds : Str} (hw : w.all isSpace = true) (hne : ds ≠ []) (hd : ds.all isDigit = true) (hlt : num ds < 2 ^ 32)
    {r : Str} (hr : EndsNum r) : Stream.getU32 old ⟨w ++ (ds ++ r), false, false⟩ = (num ds, ⟨r, r.isEmpty, false⟩) := by
  cases ds with
  | nil => exact absurd rfl hne
  | cons b ds =>
      have hb : isDigit b = true := by rw [List.all_cons, Bool.and_eq_true] at hd; exact hd.1
      unfold Stream.getU32
      rw [List.cons_append, Stream.sentry_skip hw (digit_not_space hb)]
      dsimp only
      rw [if_neg (by simp)]
      have hs : Stream.sign (b :: (ds ++ r)) = (false, b :: (ds ++ r)) := by
        rw [isDigit_iff] at hb
        simp only [Stream.sign]
        rw [if_neg (by omega), if_neg (by omega)]
      rw [hs]
      dsimp only
      have hsp := span_all (p := isDigit) (b :: ds) (s := r) hd (by cases r with | nil => trivial | cons c r => exact hr)
      rw [← List.cons_append, hsp.1, hsp.2]
      rw [if_neg (by simp), if_neg (by omega)]
      simp

/-- reading a word -/
theorem Stream.getWord_word (old : Str) {w t : Str} (hw : w.all isSpace = true) (hne : t ≠ []) (ht : ∀ b ∈ t, isSpace b = false)
    {r : Str} (hr : EndsWord r) : Stream.getWord old ⟨w ++ (t ++ r), false, false⟩ = (t, ⟨r, r.isEmpty, false⟩) := by
  cases t with
  | nil => exact absurd rfl hne
  | cons b t =>
      unfold Stream.getWord
      rw [List.cons_append, Stream.sentry_skip hw (ht b (by simp))]
      dsimp only
      rw [if_neg (by simp)]
      have hsp := span_all (p := fun b => !isSpace b) (b :: t) (s := r) (by
        rw [List.all_eq_true]
        intro c hc
        simp [ht c hc]) (by cases r with | nil => trivial | cons c r => simp only [EndsWord] at hr; simp [hr])
      rw [← List.cons_append, hsp.1, hsp.2]

theorem Stream.sentry_num {w ds : Str} (hw : w.all isSpace = true) (hne : ds ≠ []) (hd : ds.all isDigit = true) (r : Str) :
    (Stream.sentry ⟨w ++ (ds ++ r), false, false⟩).fail = false := by
  cases ds with
  | nil => exact absurd rfl hne
  | cons b ds =>
      have hb : isDigit b = true := by rw [List.all_cons, Bool.and_eq_true] at hd; exact hd.1
      rw [List.cons_append, Stream.sentry_skip hw (digit_not_space hb)]

/-! ## Lists -/

theorem readIds_join : ∀ (l : List Nat) (w r : Str), w.all isSpace = true → (∀ x ∈ l, x < 2 ^ 32) →
    readIds l.length ⟨w ++ (join (l.map dec) ++ 10 :: r), false, false⟩ = .ok (l, ⟨(if l = [] then w else []) ++ 10 :: r, false, false⟩)
  | [], w, r, _, _ => rfl
  | [x], w, r, hw, hl => by
      have hx := hl x (by simp)
      simp only [List.length_cons, List.length_nil, List.map_cons, List.map_nil, join]
      unfold readIds
      rw [if_neg (by rw [Stream.sentry_num hw (dec_ne x) (dec_digits x)]; simp),
        Stream.getU32_num 0 hw (dec_ne x) (dec_digits x) (by rw [num_dec]; exact hx) (r := 10 :: r) (by simp [EndsNum, isDigit]), num_dec]
      rfl
  | x :: y :: l, w, r, hw, hl => by
      have hx := hl x (by simp)
      have ih := readIds_join (y :: l) [32] r (by decide) (fun z hz => hl z (List.mem_cons_of_mem _ hz))
      rw [List.length_cons, List.map_cons]
      rw [show join (dec x :: List.map dec (y :: l)) = dec x ++ 32 :: join (List.map dec (y :: l)) from rfl, List.append_assoc]
      unfold readIds
      rw [if_neg (by rw [Stream.sentry_num hw (dec_ne x) (dec_digits x)]; simp),
        Stream.getU32_num 0 hw (dec_ne x) (dec_digits x) (by rw [num_dec]; exact hx) (r := _) (by simp [EndsNum, isDigit]), num_dec]
      dsimp only
      rw [List.cons_append] 
      change (readIds (y :: l).length ⟨[32] ++ (join (List.map dec (y :: l)) ++ 10 :: r), _, _⟩ >>= _) = _
      rw [show (32 :: (join (List.map dec (y :: l)) ++ 10 :: r)).isEmpty = false from rfl, ih]
      rfl

theorem readLists_text : ∀ (ls : List (List Nat)) (w : Str), w.all isSpace = true → (∀ l ∈ ls, l.length < 2 ^ 32 ∧ ∀ x ∈ l, x < 2 ^ 32) →
    readLists ls.length ⟨w ++ ls.flatMap listText, false, false⟩ = .ok ls
  | [], _, _, _ => rfl
  | l :: ls, w, hw, h => by
      obtain ⟨h1, h2⟩ := h l (by simp)
      have ih := readLists_text ls ((if l = [] then [32] else []) ++ [10]) (by split <;> decide) (fun l hl => h l (List.mem_cons_of_mem _ hl))
      have hj : ∀ R : Str, listText l ++ R = dec l.length ++ (32 :: (join (l.map dec) ++ 10 :: R)) := by
        intro R
        unfold listText
        simp
      rw [List.length_cons, List.flatMap_cons, hj]
      generalize ls.flatMap listText = R at ih ⊢
      unfold readLists
      rw [Stream.getU32_num 0 hw (dec_ne _) (dec_digits _) (by rw [num_dec]; exact h1) (r := _) (by simp [EndsNum, isDigit]), num_dec]
      dsimp only
      have := readIds_join l [32] R (by decide) h2
      rw [List.cons_append, List.nil_append] at this
      rw [List.isEmpty_cons, this, M.ok_bind]
      dsimp only
      rw [List.append_assoc, List.cons_append, List.nil_append] at ih
      rw [ih]
      rfl

/-! ## The dictionary -/

theorem readWords_text : ∀ (terms : List Str) (w : Str) (j : Nat) (prev curr header : Str), w.all isSpace = true →
    (∀ t ∈ terms, t ≠ [] ∧ ∀ b ∈ t, isSpace b = false) →
    readWords terms.length j prev curr header ⟨w ++ dictText terms, false, false⟩ = terms
  | [], _, _, _, _, _, _, _ => rfl
  | t :: ts, w, j, prev, curr, header, hw, h => by
      obtain ⟨h1, h2⟩ := h t (by simp)
      have ih := fun j p c hd => readWords_text ts [10] j p c hd (by decide) (fun t ht => h t (List.mem_cons_of_mem _ ht))
      rw [List.length_cons, show dictText (t :: ts) = t ++ ([10] ++ dictText ts) by rw [dictText, List.flatMap_cons, List.append_assoc]; rfl]
      unfold readWords
      have hg := fun old => Stream.getWord_word old hw h1 h2 (r := [10] ++ dictText ts) (by simp [EndsWord, isSpace])
      rw [hg, hg]
      dsimp only
      have he : List.isEmpty ([10] ++ dictText ts) = false := rfl
      rw [he]
      split
      · rw [ih]
      · rw [ih]

/-! ## The records -/

theorem readTerms_join : ∀ (ids : List Nat) (fuel x : Nat) (acc : Ids) (w r : Str), w.all isSpace = true → x ≠ 0 → (∀ t ∈ ids, t ≠ 0 ∧ t < 2 ^ 32) →
    ids.length + 1 < fuel →
    readTerms fuel x acc ⟨w ++ (join (ids.map dec ++ [dec 0]) ++ 10 :: r), false, false⟩ = .ok (acc ++ ids ++ [0], ⟨10 :: r, false, false⟩)
  | _, 0, _, _, _, _, _, _, _, hf => absurd hf (Nat.not_lt_zero _)
  | [], fuel + 1, x, acc, w, r, hw, hx, _, hf => by
      unfold readTerms
      rw [if_neg (by simp [hx])]
      simp only [List.map_nil, List.nil_append, join]
      rw [Stream.getU32_num x hw (dec_ne 0) (dec_digits 0) (by rw [num_dec]; decide) (r := 10 :: r) (by simp [EndsNum, isDigit]), num_dec]
      dsimp only
      cases fuel with
      | zero => simp at hf
      | succ fuel =>
          unfold readTerms
          simp
  | t :: ts, fuel + 1, x, acc, w, r, hw, hx, ht, hf => by
      obtain ⟨h1, h2⟩ := ht t (by simp)
      unfold readTerms
      rw [if_neg (by simp [hx])]
      have hj : join ((t :: ts).map dec ++ [dec 0]) = dec t ++ 32 :: join (ts.map dec ++ [dec 0]) := by
        rw [List.map_cons, List.cons_append]
        cases ts with
        | nil => rfl
        | cons y ys => rfl
      rw [hj, List.append_assoc, Stream.getU32_num x hw (dec_ne t) (dec_digits t) (by rw [num_dec]; exact h2) (r := _) (by simp [EndsNum, isDigit]), num_dec]
      dsimp only
      have ih := readTerms_join ts fuel t (acc ++ [t]) [32] r (by decide) h1 (fun z hz => ht z (List.mem_cons_of_mem _ hz))
        (by rw [List.length_cons] at hf; omega)
      change readTerms fuel t (acc ++ [t]) ⟨[32] ++ (join (ts.map dec ++ [dec 0]) ++ 10 :: r), false, false⟩ = _
      rw [ih]
      simp [List.append_assoc]

/-- a line of `.mapped` -/
def recordText (x : Str) (ids : List Nat) : Str := join (x :: ids.map dec ++ [dec 0]) ++ [10]

theorem join_length_ge : ∀ (ws : List Str), ws.length ≤ (join ws).length + 1
  | [] => by simp [join]
  | [w] => by simp [join]
  | w :: w' :: ws => by
      have := join_length_ge (w' :: ws)
      simp only [join, List.length_append, List.length_cons] at this ⊢
      omega

theorem readNext_text (doc : Nat) {x : Str} (hx : x ≠ []) (hd : x.all isDigit = true) (hlt : num x < 2 ^ 32) {ids : List Nat}
    (hids : ∀ t ∈ ids, t ≠ 0 ∧ t < 2 ^ 32) {w : Str} (hw : w.all isSpace = true) (r : Str) :
    readNext doc ⟨w ++ (recordText x ids ++ r), false, false⟩ = .ok ((num x, ids ++ [0]), ⟨10 :: r, false, false⟩) := by
  have hj : recordText x ids ++ r = x ++ ([32] ++ (join (ids.map dec ++ [dec 0]) ++ 10 :: r)) := by
    unfold recordText
    cases ids with
    | nil => simp [join]
    | cons y ys => simp [join]
  unfold readNext
  rw [hj, Stream.getU32_num doc hw hx hd hlt (r := _) (by simp [EndsNum, isDigit])]
  dsimp only
  have he : List.isEmpty ([32] ++ (join (ids.map dec ++ [dec 0]) ++ 10 :: r)) = false := rfl
  rw [he, readTerms_join ids _ INVALID_TERM [] [32] r (by decide) (by decide) hids ?_]
  · rfl
  · have := join_length_ge (ids.map dec ++ [dec 0])
    simp only [List.length_append, List.length_cons, List.length_map, List.length_nil] at this ⊢
    omega

theorem readNext_end (doc : Nat) {w : Str} (hw : w.all isSpace = true) :
    readNext doc ⟨w, false, false⟩ = .ok ((doc, []), ⟨[], true, true⟩) := by
  unfold readNext Stream.getU32
  rw [Stream.sentry_end hw]
  rfl

/-- the contents of `.mapped`, from the texts of the document ids and the term ids -/
def recordsText (L : List (Str × List Nat)) : Str := L.flatMap (fun l => recordText l.1 l.2)

/-- what can be read back -/
def GoodRecord (l : Str × List Nat) : Prop := l.1 ≠ [] ∧ l.1.all isDigit = true ∧ num l.1 < 2 ^ 32 ∧ ∀ t ∈ l.2, t ≠ 0 ∧ t < 2 ^ 32

theorem readWhile_text : ∀ (L : List (Str × List Nat)) (fuel : Nat) (r : Nat × Ids), (∀ l ∈ L, GoodRecord l) → L.length + 1 < fuel →
    readWhile fuel r ⟨10 :: recordsText L, false, false⟩ = .ok (r :: L.map (fun l => (num l.1, l.2 ++ [0])))
  | _, 0, _, _, hf => absurd hf (Nat.not_lt_zero _)
  | [], fuel + 1, r, _, hf => by
      unfold readWhile
      rw [if_neg (by simp), show recordsText [] = [] from rfl, readNext_end r.1 (w := [10]) (by decide), M.ok_bind]
      dsimp only
      cases fuel with
      | zero => simp at hf
      | succ fuel =>
          unfold readWhile
          rw [if_pos rfl]
          rfl
  | l :: L, fuel + 1, r, h, hf => by
      obtain ⟨h1, h2, h3, h4⟩ := h l (by simp)
      have ih := readWhile_text L fuel (num l.1, l.2 ++ [0]) (fun l hl => h l (List.mem_cons_of_mem _ hl)) (by rw [List.length_cons] at hf; omega)
      unfold readWhile
      rw [if_neg (by simp)]
      have := readNext_text r.1 h1 h2 h3 h4 (w := [10]) (by decide) (recordsText L)
      rw [show recordsText (l :: L) = recordText l.1 l.2 ++ recordsText L from List.flatMap_cons ..]
      rw [show 10 :: (recordText l.1 l.2 ++ recordsText L) = [10] ++ (recordText l.1 l.2 ++ recordsText L) from rfl, this, M.ok_bind]
      dsimp only
      rw [ih]
      rfl

theorem records_length : ∀ (L : List (Str × List Nat)), L.length ≤ (recordsText L).length
  | [] => by simp
  | l :: L => by
      have := records_length L
      rw [show recordsText (l :: L) = recordText l.1 l.2 ++ recordsText L from List.flatMap_cons ..]
      unfold recordText
      simp only [List.length_append, List.length_cons, List.length_nil]
      omega

theorem readAll_text {L : List (Str × List Nat)} (hne : L ≠ []) (h : ∀ l ∈ L, GoodRecord l) :
    readAll (recordsText L) = .ok (L.map (fun l => (num l.1, l.2 ++ [0]))) := by
  cases L with
  | nil => exact absurd rfl hne
  | cons l L =>
      obtain ⟨h1, h2, h3, h4⟩ := h l (by simp)
      have hl := records_length L
      unfold readAll Stream.ofText
      have := readNext_text 0 h1 h2 h3 h4 (w := []) (by decide) (recordsText L)
      rw [show recordsText (l :: L) = recordText l.1 l.2 ++ recordsText L from List.flatMap_cons ..]
      rw [List.nil_append] at this
      rw [this, M.ok_bind]
      dsimp only
      rw [readWhile_text L _ _ (fun l hl => h l (List.mem_cons_of_mem _ hl)) ?_]
      · rfl
      · unfold recordText
        simp only [List.length_append, List.length_cons, List.length_nil]
        omega

theorem readCount_text : ∀ (L : List (Str × List Nat)) (r : Nat × Ids), (∀ l ∈ L, GoodRecord l) →
    readCount (L.length + 1) r ⟨10 :: recordsText L, false, false⟩ = .ok (r :: L.map (fun l => (num l.1, l.2 ++ [0])))
  | [], r, _ => by
      unfold readCount
      rw [show recordsText [] = [] from rfl, readNext_end r.1 (w := [10]) (by decide), M.ok_bind]
      rfl
  | l :: L, r, h => by
      obtain ⟨h1, h2, h3, h4⟩ := h l (by simp)
      have ih := readCount_text L (num l.1, l.2 ++ [0]) (fun l hl => h l (List.mem_cons_of_mem _ hl))
      rw [List.length_cons]
      unfold readCount
      have := readNext_text r.1 h1 h2 h3 h4 (w := [10]) (by decide) (recordsText L)
      rw [show recordsText (l :: L) = recordText l.1 l.2 ++ recordsText L from List.flatMap_cons ..]
      rw [show 10 :: (recordText l.1 l.2 ++ recordsText L) = [10] ++ (recordText l.1 l.2 ++ recordsText L) from rfl, this, M.ok_bind]
      dsimp only
      rw [ih]
      rfl

theorem readSome_text {L : List (Str × List Nat)} (hne : L ≠ []) (h : ∀ l ∈ L, GoodRecord l) :
    readSome L.length (recordsText L) = .ok (L.map (fun l => (num l.1, l.2 ++ [0]))) := by
  cases L with
  | nil => exact absurd rfl hne
  | cons l L =>
      obtain ⟨h1, h2, h3, h4⟩ := h l (by simp)
      unfold readSome Stream.ofText
      have := readNext_text 0 h1 h2 h3 h4 (w := []) (by decide) (recordsText L)
      rw [show recordsText (l :: L) = recordText l.1 l.2 ++ recordsText L from List.flatMap_cons ..]
      rw [List.nil_append] at this
      rw [this, M.ok_bind]
      dsimp only
      rw [List.length_cons, readCount_text L _ (fun l hl => h l (List.mem_cons_of_mem _ hl))]
      rfl

/-! ## Lines and words, in the scripts -/

namespace Pre

theorem newlines_id : ∀ s : Str, 13 ∉ s → newlines false s = s
  | [], _ => rfl
  | b :: r, h => by
      rw [List.mem_cons] at h
      unfold newlines
      rw [if_neg (fun e => h (Or.inl e.symm)), Bool.false_and, if_neg (by simp), newlines_id r (fun e => h (Or.inr e))]

theorem linesAux_line : ∀ (w R cur : Str), 10 ∉ w → linesAux (w ++ 10 :: R) cur = (cur ++ w) :: linesAux R []
  | [], R, cur, _ => by simp [linesAux]
  | b :: w, R, cur, h => by
      rw [List.mem_cons] at h
      rw [List.cons_append]
      conv => lhs; unfold linesAux
      rw [if_neg (fun e => h (Or.inl e.symm)), linesAux_line w R _ (fun e => h (Or.inr e))]
      simp

theorem linesAux_lines : ∀ ws : List Str, (∀ w ∈ ws, 10 ∉ w) → linesAux (ws.flatMap (· ++ [10])) [] = ws
  | [], _ => rfl
  | w :: ws, h => by
      rw [List.flatMap_cons, List.append_assoc, List.cons_append, List.nil_append, linesAux_line w _ _ (h w (by simp)),
        linesAux_lines ws (fun w hw => h w (List.mem_cons_of_mem _ hw))]
      rfl

theorem lines_text {ws : List Str} (h : ∀ w ∈ ws, 10 ∉ w ∧ 13 ∉ w) : lines (ws.flatMap (· ++ [10])) = ws := by
  unfold lines
  rw [newlines_id, linesAux_lines ws (fun w hw => (h w hw).1)]
  intro hm
  rw [List.mem_flatMap] at hm
  obtain ⟨w, hw, hm⟩ := hm
  rw [List.mem_append] at hm
  rcases hm with hm | hm
  · exact (h w hw).2 hm
  · simp at hm

/-- a word: not empty and without whitespace -/
def IsWord (w : Str) : Prop := w ≠ [] ∧ ∀ b ∈ w, isBlank b = false

theorem splitAux_word : ∀ (w R cur : Str), (∀ b ∈ w, isBlank b = false) → splitAux (w ++ R) cur = splitAux R (cur ++ w)
  | [], R, cur, _ => by simp
  | b :: w, R, cur, h => by
      rw [List.cons_append]
      conv => lhs; unfold splitAux
      rw [if_neg (by simp [h b (by simp)]), splitAux_word w R _ (fun b hb => h b (List.mem_cons_of_mem _ hb))]
      simp

theorem split_join : ∀ ws : List Str, (∀ w ∈ ws, IsWord w) → split (join ws) = ws
  | [], _ => rfl
  | [w], h => by
      have := splitAux_word w [] [] (h w (by simp)).2
      rw [List.append_nil, List.nil_append] at this
      unfold split join
      rw [this]
      unfold splitAux
      rw [if_neg (by simp [(h w (by simp)).1])]
  | w :: w' :: ws, h => by
      have ih := split_join (w' :: ws) (fun w hw => h w (List.mem_cons_of_mem _ hw))
      unfold split at ih ⊢
      rw [show join (w :: w' :: ws) = w ++ 32 :: join (w' :: ws) from rfl, splitAux_word w _ _ (h w (by simp)).2, List.nil_append]
      conv => lhs; unfold splitAux
      rw [if_pos (by decide), if_neg (by simp [(h w (by simp)).1]), ih]

theorem splitAux_words : ∀ (s cur : Str), (∀ b ∈ cur, isBlank b = false) → ∀ w ∈ splitAux s cur, IsWord w
  | [], cur, hc, w, hw => by
      unfold splitAux at hw
      split at hw
      · simp at hw
      · rename_i hne
        rw [List.mem_singleton] at hw
        subst hw
        exact ⟨by simpa using hne, hc⟩
  | b :: r, cur, hc, w, hw => by
      unfold splitAux at hw
      split at hw
      · split at hw
        · exact splitAux_words r [] (by simp) w hw
        · rename_i hne
          rcases List.mem_cons.mp hw with rfl | hw
          · exact ⟨by simpa using hne, hc⟩
          · exact splitAux_words r [] (by simp) w hw
      · rename_i hb
        refine splitAux_words r (cur ++ [b]) ?_ w hw
        intro c hc'
        rw [List.mem_append, List.mem_singleton] at hc'
        rcases hc' with hc' | rfl
        · exact hc c hc'
        · simpa using hb

theorem split_words {s w : Str} (h : w ∈ split s) : IsWord w := splitAux_words s [] (by simp) w h

theorem mapM_mem {α β : Type} {f : α → Option β} : ∀ {l : List α} {r : List β}, l.mapM f = some r → ∀ y ∈ r, ∃ x ∈ l, f x = some y
  | [], r, h, y, hy => by
      simp at h
      subst h
      simp at hy
  | x :: l, r, h, y, hy => by
      rw [List.mapM_cons] at h
      cases hx : f x with
      | none => rw [hx] at h; simp at h
      | some z =>
          rw [hx] at h
          cases hl : l.mapM f with
          | none => rw [hl] at h; simp at h
          | some zs =>
              rw [hl] at h
              simp at h
              subst h
              rcases List.mem_cons.mp hy with rfl | hy
              · exact ⟨x, by simp, hx⟩
              · obtain ⟨x', h1, h2⟩ := mapM_mem hl y hy
                exact ⟨x', List.mem_cons_of_mem _ h1, h2⟩

theorem mapM_map {α β γ : Type} {f : β → Option γ} {g : α → β} {k : α → γ} : ∀ {l : List α}, (∀ x ∈ l, f (g x) = some (k x)) →
    (l.map g).mapM f = some (l.map k)
  | [], _ => rfl
  | x :: l, h => by
      rw [List.map_cons, List.mapM_cons, h x (by simp), mapM_map (fun x hx => h x (List.mem_cons_of_mem _ hx))]
      rfl

theorem dec_isWord (n : Nat) : IsWord (dec n) := by
  refine ⟨dec_ne n, ?_⟩
  intro b hb
  have := List.all_eq_true.mp (dec_digits n) b hb
  rw [isDigit_iff] at this
  unfold isBlank
  simp
  omega

theorem IsWord.not_space {w : Str} (h : IsWord w) : ∀ b ∈ w, isSpace b = false := by
  intro b hb
  have := h.2 b hb
  unfold isBlank at this
  unfold isSpace
  simp at this ⊢
  omega

theorem IsWord.not_newline {w : Str} (h : IsWord w) : 10 ∉ w ∧ 13 ∉ w :=
  ⟨fun hm => by have := h.2 10 hm; revert this; decide, fun hm => by have := h.2 13 hm; revert this; decide⟩

theorem join_not_mem {c : Nat} (hc : c ≠ 32) : ∀ ws : List Str, (∀ w ∈ ws, c ∉ w) → c ∉ join ws
  | [], _ => by simp [join]
  | [w], h => h w (by simp)
  | w :: w' :: ws, h => by
      rw [show join (w :: w' :: ws) = w ++ 32 :: join (w' :: ws) from rfl, List.mem_append, List.mem_cons]
      rintro (a | a | a)
      · exact h w (by simp) a
      · exact hc a
      · exact join_not_mem hc (w' :: ws) (fun w hw => h w (List.mem_cons_of_mem _ hw)) a

/-- a line of a file: its words -/
theorem lines_join {ls : List (List Str)} (h : ∀ ws ∈ ls, ∀ w ∈ ws, IsWord w) : lines (ls.flatMap (fun ws => join ws ++ [10])) = ls.map join := by
  rw [← lines_text (ws := ls.map join), List.flatMap_map]
  intro w hw
  obtain ⟨ws, hws, rfl⟩ := List.mem_map.mp hw
  exact ⟨join_not_mem (by decide) ws (fun w hw => (h ws hws w hw).not_newline.1), join_not_mem (by decide) ws (fun w hw => (h ws hws w hw).not_newline.2)⟩

theorem parseLine_join {x : Str} {ts : List Str} (hx : IsWord x) (hd : x.all isDigit = true) (ht : ∀ t ∈ ts, IsWord t) :
    parseLine (join (x :: ts)) = some (x, num x, ts) := by
  unfold parseLine
  rw [split_join (x :: ts) (by
    intro w hw
    rcases List.mem_cons.mp hw with rfl | hw
    · exact hx
    · exact ht w hw)]
  dsimp only
  unfold int?
  rw [if_pos (by simp [hx.1]; exact fun y hy => List.all_eq_true.mp hd y hy)]
  rfl

/-- what a line that is accepted looks like -/
structure GoodLine (l : Str × Nat × List Str) : Prop where
  id : IsWord l.1
  digits : l.1.all isDigit = true
  num : num l.1 = l.2.1
  terms : ∀ t ∈ l.2.2, IsWord t

theorem parseLine_good {s : Str} {l : Str × Nat × List Str} (h : parseLine s = some l) : GoodLine l := by
  unfold parseLine at h
  have hw := fun w => split_words (s := s) (w := w)
  revert h hw
  cases split s with
  | nil => simp
  | cons x ts =>
      intro h hw
      dsimp only at h
      unfold int? at h
      split at h
      · rename_i hd
        simp only [Option.map_some, Option.some.injEq] at h
        subst h
        rw [Bool.and_eq_true] at hd
        exact ⟨hw x (by simp), hd.2, rfl, fun t ht => hw t (List.mem_cons_of_mem _ ht)⟩
      · simp at h

theorem parse_good {X : Str} {L : List (Str × Nat × List Str)} (h : parse X = some L) : ∀ l ∈ L, GoodLine l := by
  intro l hl
  obtain ⟨s, _, hs⟩ := mapM_mem h l hl
  exact parseLine_good hs

/-- lines of words are read as they are -/
theorem parse_lines {L : List (Str × List Str)} (h : ∀ l ∈ L, IsWord l.1 ∧ l.1.all isDigit = true ∧ ∀ t ∈ l.2, IsWord t) :
    parse (L.flatMap (fun l => join (l.1 :: l.2) ++ [10])) = some (L.map (fun l => (l.1, AC.num l.1, l.2))) := by
  unfold parse
  have : L.flatMap (fun l => join (l.1 :: l.2) ++ [10]) = (L.map (fun l => l.1 :: l.2)).flatMap (fun ws => join ws ++ [10]) := by
    rw [List.flatMap_map]
  rw [this, lines_join, List.map_map]
  · exact mapM_map (fun l hl => parseLine_join (h l hl).1 (h l hl).2.1 (h l hl).2.2)
  · intro ws hws w hw
    obtain ⟨l, hl, rfl⟩ := List.mem_map.mp hws
    rcases List.mem_cons.mp hw with rfl | hw
    · exact (h l hl).1
    · exact (h l hl).2.2 w hw

/-! ## The statistics -/

theorem common_map : ∀ (a b : List Nat), common (a.map dec) (b.map dec) = FC.lcp a b
  | [], _ => by simp [common, FC.lcp]
  | _ :: _, [] => by simp [common, FC.lcp]
  | x :: a, y :: b => by
      unfold FC.lcp
      rw [List.map_cons, List.map_cons]
      unfold common
      by_cases hxy : x = y
      · subst hxy
        rw [if_pos rfl, common_map a b]
        simp
      · rw [if_neg (fun e => hxy (dec_inj e))]
        simp [hxy]

theorem bump_keys (l : Nat) : ∀ m : List (Nat × Nat), (bump l m).map (·.1) = if l ∈ m.map (·.1) then m.map (·.1) else m.map (·.1) ++ [l]
  | [] => by simp [bump]
  | e :: es => by
      unfold bump
      split
      · rename_i he
        simp [he]
      · rename_i he
        rw [List.map_cons, bump_keys l es]
        have : l ≠ e.1 := fun h => he h.symm
        by_cases hm : l ∈ es.map (·.1)
        · rw [if_pos hm, if_pos (by simp only [List.map_cons, List.mem_cons]; exact Or.inr hm)]
          rfl
        · rw [if_neg hm, if_neg (by simp only [List.map_cons, List.mem_cons]; exact fun h => h.elim this hm)]
          rfl

theorem bumps_keys : ∀ (ls : List Nat) (m : List (Nat × Nat)), (ls.foldl (fun m l => bump l m) m).map (·.1) = addLevels (m.map (·.1)) ls
  | [], _ => rfl
  | l :: ls, m => by
      rw [List.foldl_cons, bumps_keys ls, bump_keys]
      rfl

theorem countNodes_keys : ∀ (qs : List Ids) (prev : Ids) (m : List (Nat × Nat)),
    (countNodes (qs.map (List.map dec)) (prev.map dec) m).map (·.1) = levelKeys qs prev (m.map (·.1))
  | [], _, _ => rfl
  | q :: qs, prev, m => by
      rw [List.map_cons]
      unfold countNodes levelKeys
      rw [countNodes_keys qs q, bumps_keys, common_map, List.length_map]

theorem bump_sum (l : Nat) : ∀ m : List (Nat × Nat), ((bump l m).map (·.2)).sum = (m.map (·.2)).sum + 1
  | [] => by simp [bump]
  | e :: es => by
      unfold bump
      split
      · simp only [List.map_cons, List.sum_cons]; omega
      · have := bump_sum l es
        simp only [List.map_cons, List.sum_cons]; omega

theorem bumps_sum : ∀ (ls : List Nat) (m : List (Nat × Nat)), ((ls.foldl (fun m l => bump l m) m).map (·.2)).sum = (m.map (·.2)).sum + ls.length
  | [], _ => rfl
  | l :: ls, m => by
      rw [List.foldl_cons, bumps_sum ls, bump_sum, List.length_cons]
      omega

theorem countNodes_sum : ∀ (qs : List (List Str)) (prev : List Str) (m : List (Nat × Nat)),
    ((countNodes qs prev m).map (·.2)).sum ≤ (m.map (·.2)).sum + (qs.map List.length).sum
  | [], _, _ => by simp [countNodes]
  | q :: qs, prev, m => by
      unfold countNodes
      have := countNodes_sum qs q ((List.range' (common q prev) (q.length - common q prev)).foldl (fun m l => bump l m) m)
      rw [bumps_sum, List.length_range'] at this
      simp only [List.map_cons, List.sum_cons]
      omega

theorem insertKey_perm (e : Nat × Nat) : ∀ m, (insertKey e m).Perm (e :: m)
  | [] => .refl _
  | f :: fs => by
      unfold insertKey
      split
      · exact .refl _
      · exact ((insertKey_perm e fs).cons f).trans (List.Perm.swap e f fs)

theorem sortKeys_perm : ∀ m, (sortKeys m).Perm m
  | [] => .refl _
  | e :: es => (insertKey_perm e _).trans ((sortKeys_perm es).cons e)

theorem readNodes_text : ∀ (ns : List Nat), (∀ n ∈ ns, n < 2 ^ 32) → readNodes ns.length ⟨10 :: ns.flatMap (fun n => dec n ++ [10]), false, false⟩ = (ns, 0)
  | [], _ => rfl
  | n :: ns, h => by
      rw [List.length_cons, List.flatMap_cons]
      unfold readNodes
      rw [if_neg (by simp)]
      have := Stream.getU32_num 0 (w := [10]) (by decide) (dec_ne n) (dec_digits n) (by rw [num_dec]; exact h n (by simp))
        (r := 10 :: ns.flatMap (fun n => dec n ++ [10])) (by simp [EndsNum, isDigit])
      rw [List.append_assoc, List.cons_append, List.nil_append, ← List.singleton_append (x := 10) (l := dec n ++ _), this]
      dsimp only
      rw [List.isEmpty_cons, readNodes_text ns (fun n hn => h n (List.mem_cons_of_mem _ hn)), num_dec]

/-- the file of statistics is read as it was written -/
theorem load_text (junk : Nat) {a b c d : Nat} {ns : List Nat} (ha : a < 2 ^ 32) (hb : b ≤ MAX_CHARS) (hc : c < 2 ^ 32) (hd : d < 2 ^ 32)
    (hl : ns.length ≤ MAX_TERMS) (hn : ∀ n ∈ ns, n < 2 ^ 32) :
    Params.load junk ([a, b, c, d, ns.length].flatMap (fun n => dec n ++ [10]) ++ ns.flatMap (fun n => dec n ++ [10])) = .ok ⟨a, b, c, d, ns.length, ns⟩ := by
  have hb' : b < 2 ^ 32 := Nat.lt_of_le_of_lt hb (by decide)
  have hl' : ns.length < 2 ^ 32 := Nat.lt_of_le_of_lt hl (by decide)
  have hg : ∀ (old n : Nat), n < 2 ^ 32 → ∀ R : Str, Stream.getU32 old ⟨10 :: (dec n ++ 10 :: R), false, false⟩ = (n, ⟨10 :: R, false, false⟩) := by
    intro old n hn R
    have := Stream.getU32_num old (w := [10]) (by decide) (dec_ne n) (dec_digits n) (by rw [num_dec]; exact hn) (r := 10 :: R) (by simp [EndsNum, isDigit])
    rw [List.singleton_append, num_dec] at this
    rw [this]
    rfl
  have hg0 : ∀ R : Str, Stream.getU32 0 ⟨dec a ++ 10 :: R, false, false⟩ = (a, ⟨10 :: R, false, false⟩) := by
    intro R
    have := Stream.getU32_num 0 (w := []) (by decide) (dec_ne a) (dec_digits a) (by rw [num_dec]; exact ha) (r := 10 :: R) (by simp [EndsNum, isDigit])
    rw [List.nil_append, num_dec] at this
    rw [this]
    rfl
  unfold Params.load Stream.ofText
  simp only [List.flatMap_cons, List.flatMap_nil, List.append_assoc, List.cons_append, List.nil_append]
  rw [hg0]
  dsimp only
  rw [hg 0 b hb']
  dsimp only
  rw [hg 0 c hc]
  dsimp only
  rw [hg junk d hd]
  dsimp only
  rw [hg 0 _ hl']
  dsimp only
  rw [if_neg (by omega), if_neg (by omega), readNodes_text ns hn]
  rfl

theorem maxDoc_eq (C : Coll) : maxDoc (C.map (·.1)) + 1 = univOf C := by
  unfold maxDoc univOf
  rw [List.foldl_map]

/-! ## All the files -/

/-- the records of the file `.mapped` -/
def recordsOf (terms : List Str) (L : List (Str × Nat × List Str)) : List (Str × List Nat) := L.map (fun l => (l.1, l.2.2.map (tokenId terms)))

theorem mappedText_eq (terms : List Str) (L : List (Str × Nat × List Str)) : mappedText terms L = recordsText (recordsOf terms L) := by
  unfold mappedText recordsText recordsOf recordText
  rw [List.flatMap_map]
  simp only [List.map_map]
  rfl

theorem parse_mapped {terms : List Str} {L : List (Str × Nat × List Str)} (h : ∀ l ∈ L, GoodLine l) :
    parse (mappedText terms L) = some (L.map (fun l => (l.1, l.2.1, (l.2.2.map (tokenId terms) ++ [0]).map dec))) := by
  have := parse_lines (L := L.map (fun l => (l.1, (l.2.2.map (tokenId terms) ++ [0]).map dec))) (by
    intro e he
    obtain ⟨l, hl, rfl⟩ := List.mem_map.mp he
    refine ⟨(h l hl).id, (h l hl).digits, ?_⟩
    intro t ht
    obtain ⟨n, _, rfl⟩ := List.mem_map.mp ht
    exact dec_isWord n)
  rw [List.flatMap_map, List.map_map] at this
  have e : mappedText terms L = L.flatMap (fun l => join (l.1 :: (l.2.2.map (tokenId terms) ++ [0]).map dec) ++ [10]) := by
    unfold mappedText
    simp only [List.map_append, List.map_map, List.map_cons, List.map_nil, List.cons_append]
    rfl
  rw [e]
  dsimp only at this
  rw [this]
  congr 1
  apply List.map_congr_left
  intro l hl
  dsimp only [Function.comp]
  rw [(h l hl).num]

theorem sum_terminated (f : Str → Nat) : ∀ (C : Coll), ((C.map (fun r => (r.2.map f ++ [0]).map dec)).map List.length).sum = (C.flatMap (·.2)).length + C.length
  | [] => rfl
  | r :: C => by
      have := sum_terminated f C
      simp only [List.map_cons, List.sum_cons, List.flatMap_cons, List.length_append, List.length_cons, List.length_map, List.length_nil] at this ⊢
      rw [this]
      omega

theorem le_of_mem_values {m : List (Nat × Nat)} {e : Nat × Nat} (h : e ∈ m) : e.2 ≤ (m.map (·.2)).sum :=
  le_sum_of_mem' (List.mem_map.mpr ⟨e, h, rfl⟩)

/-- What the scripts write, the constructors read; the length of the longest completion is any number that is accepted. -/
theorem prepareLines_read (junk : Nat) {L : List (Str × Nat × List Str)} (hg : ∀ l ∈ L, GoodLine l) (hv : ValidColl (collOf L)) {m : Nat} (hm : m ≤ MAX_CHARS) :
    ∃ T P, prepareLines L m = some T ∧ Params.load junk T.stats = .ok P ∧ P.numTerms = (run (collOf L)).terms.length ∧ P.numCompl = L.length ∧
      T.read P = .ok { run (collOf L) with maxLen := m } ∧ readSome P.numCompl T.mapped = readAll T.mapped ∧
      P.nodes.length = P.levels ∧ P.levels = numLevels ((mapDataset (extractDict (collOf L)) (collOf L)).map (·.2)) ∧
      P.nodes = (sortKeys (countNodes (((collOf L).map (fun r => r.2.map (tokenId (extractDict (collOf L))) ++ [0])).map (List.map dec)) ([].map dec) [])).map (·.2) := by
  have hR := hv.ready
  have hwords : ∀ t ∈ extractDict (collOf L), IsWord t := by
    intro t ht
    obtain ⟨r, hr, ht⟩ := (mem_extractDict _ t).mp ht
    obtain ⟨l, hl, rfl⟩ := List.mem_map.mp hr
    exact (hg l hl).terms t ht
  have hlines : lines (dictText (extractDict (collOf L))) = extractDict (collOf L) := lines_text (fun w hw => (hwords w hw).not_newline)
  have hin : ∀ l ∈ L, ∀ t ∈ l.2.2, t ∈ extractDict (collOf L) := fun l hl t ht =>
    (mem_extractDict _ t).mpr ⟨l.2, List.mem_map.mpr ⟨l, hl, rfl⟩, ht⟩
  have hsize := hv.size
  have hct := hR.count_le
  have htc : (extractDict (collOf L)).length ≤ ((collOf L).flatMap (·.2)).length := hR.termCount_le
  have hlen : (collOf L).length = L.length := List.length_map ..
  have hu : univOf (collOf L) < 2 ^ 32 := hR.univ_lt
  -- the nodes
  let N := countNodes ((L.map (fun l => (l.1, l.2.1, (l.2.2.map (tokenId (extractDict (collOf L))) ++ [0]).map dec))).map (·.2.2)) [] []
  have hN : N = countNodes (((collOf L).map (fun r => r.2.map (tokenId (extractDict (collOf L))) ++ [0])).map (List.map dec)) ([].map dec) [] := by
    simp only [N, List.map_map, collOf]
    rfl
  have hNl : N.length = numLevels ((mapDataset (extractDict (collOf L)) (collOf L)).map (·.2)) := by
    rw [← List.length_map (f := (·.1)) (as := N), hN, countNodes_keys]
    unfold numLevels mapDataset
    rw [List.map_map, List.map_map]
    rfl
  have hNv : ∀ e ∈ N, e.2 < 2 ^ 32 := by
    intro e he
    have h1 := le_of_mem_values he
    have h2 := countNodes_sum (((collOf L).map (fun r => r.2.map (tokenId (extractDict (collOf L))) ++ [0])).map (List.map dec)) ([].map dec) []
    rw [← hN] at h2
    have h3 := sum_terminated (tokenId (extractDict (collOf L))) (collOf L)
    simp only [List.map_map, Function.comp_def, List.map_nil, List.sum_nil] at h2 h3
    omega
  have hstats : statsText (extractDict (collOf L)) m (mappedText (extractDict (collOf L)) L) =
      some ([(extractDict (collOf L)).length, m, L.length, univOf (collOf L), (((sortKeys N).map (·.2)).length)].flatMap (fun n => dec n ++ [10])
        ++ ((sortKeys N).map (·.2)).flatMap (fun n => dec n ++ [10])) := by
    unfold statsText
    rw [parse_mapped hg]
    have : maxDoc ((L.map (fun l => (l.1, l.2.1, (l.2.2.map (tokenId (extractDict (collOf L))) ++ [0]).map dec))).map (·.2.1)) + 1 = univOf (collOf L) := by
      rw [← maxDoc_eq, collOf, List.map_map, List.map_map]
      rfl
    dsimp only [Option.bind_eq_bind, Option.bind_some]
    rw [this, List.length_map, List.length_map, (sortKeys_perm N).length_eq, List.flatMap_map]
  have hrec : ∀ l ∈ recordsOf (extractDict (collOf L)) L, GoodRecord l := by
    intro e he
    obtain ⟨l, hl, rfl⟩ := List.mem_map.mp he
    refine ⟨(hg l hl).id.1, (hg l hl).digits, ?_, ?_⟩
    · dsimp only
      rw [(hg l hl).num]
      have := hv.ids l.2 (List.mem_map.mpr ⟨l, hl, rfl⟩)
      omega
    · intro t ht
      obtain ⟨w, hw, rfl⟩ := List.mem_map.mp ht
      have h1 := tokenId_pos (extractDict (collOf L)) w
      have h2 := tokenId_le (hin l hl w hw)
      omega
  have hrne : recordsOf (extractDict (collOf L)) L ≠ [] := by
    intro e
    apply hv.ne
    unfold recordsOf at e
    rw [List.map_eq_nil_iff] at e
    rw [e]
    rfl
  refine ⟨⟨dictText (extractDict (collOf L)), mappedText (extractDict (collOf L)) L, _, (run (collOf L)).inverted.flatMap listText,
    (run (collOf L)).forward.flatMap listText⟩, ⟨(extractDict (collOf L)).length, m, L.length, univOf (collOf L), ((sortKeys N).map (·.2)).length,
    (sortKeys N).map (·.2)⟩, ?_, load_text junk (by omega) hm (by omega) hu ?_ ?_, rfl, rfl, ?_, ?_, rfl, by rw [List.length_map, (sortKeys_perm N).length_eq, hNl], by rw [← hN]⟩
  · unfold prepareLines
    dsimp only [Option.bind_eq_bind, Option.bind_some]
    rw [hlines, hstats]
    rfl
  · rw [List.length_map, (sortKeys_perm N).length_eq, hNl]
    obtain ⟨r, hr, he⟩ := hR.files.levels
    have := hv.short r hr
    have he' : r.2.length + 1 = numLevels ((mapDataset (extractDict (collOf L)) (collOf L)).map (·.2)) := he
    rw [← he']
    exact this
  · intro n hn
    obtain ⟨e, he, rfl⟩ := List.mem_map.mp hn
    exact hNv e ((sortKeys_perm N).mem_iff.mp he)
  · unfold Texts.read
    dsimp only
    rw [mappedText_eq, readAll_text hrne hrec, M.ok_bind]
    have hi := readLists_text (run (collOf L)).inverted [] (by decide) (by
      intro l hl
      obtain ⟨i, hi, rfl⟩ := hR.mem_inverted hl
      have hlt : ∀ x ∈ (run (collOf L)).inverted.getD i [], x < univOf (collOf L) := by
        intro x hx
        obtain ⟨c, hc, _⟩ := (hR.files.memList i x hi).mp hx
        exact hR.files.lt_univ _ hc
      refine ⟨?_, fun x hx => Nat.lt_trans (hlt x hx) hu⟩
      have := nodup_subset_length' (A := (run (collOf L)).inverted.getD i []) (B := List.range (univOf (collOf L)))
        ((hR.files.sortedList i hi).imp (fun h => Nat.ne_of_lt h)) (fun x hx => List.mem_range.mpr (hlt x hx))
      rw [List.length_range] at this
      omega)
    have hf := readLists_text (run (collOf L)).forward [] (by decide) (by
      intro l hl
      rcases hR.mem_forward hl with rfl | ⟨r, hr, rfl⟩
      · simp
      · have := hv.short r hr
        refine ⟨by rw [List.length_map]; omega, ?_⟩
        intro x hx
        obtain ⟨t, ht, rfl⟩ := List.mem_map.mp hx
        have := rankOf_le (hR.mem hr t ht)
        have h2 : (run (collOf L)).terms.length ≤ ((collOf L).flatMap (·.2)).length := hR.termCount_le
        omega)
    rw [List.nil_append, hR.files.numLists] at hi
    rw [List.nil_append, hR.files.numDocs] at hf
    unfold Stream.ofText
    have hi' : readLists (extractDict (collOf L)).length ⟨(run (collOf L)).inverted.flatMap listText, false, false⟩ = .ok (run (collOf L)).inverted := hi
    have hf' : readLists (univOf (collOf L)) ⟨(run (collOf L)).forward.flatMap listText, false, false⟩ = .ok (run (collOf L)).forward := hf
    rw [hi', M.ok_bind, hf', M.ok_bind]
    have hd := readWords_text (extractDict (collOf L)) [] 0 [] [] [] (by decide) (fun t ht => ⟨(hwords t ht).1, (hwords t ht).not_space⟩)
    rw [List.nil_append] at hd
    rw [hd, List.length_map, (sortKeys_perm N).length_eq, hNl]
    have hm : ((recordsOf (extractDict (collOf L)) L).map (fun l => (AC.num l.1, l.2 ++ [0]))).map (fun r => (r.1, r.2.dropLast)) =
        mapDataset (extractDict (collOf L)) (collOf L) := by
      unfold recordsOf mapDataset collOf
      rw [List.map_map, List.map_map, List.map_map]
      apply List.map_congr_left
      intro l hl
      dsimp only [Function.comp]
      rw [(hg l hl).num, List.dropLast_concat]
    rw [hm]
    rfl
  · dsimp only
    rw [mappedText_eq, readAll_text hrne hrec]
    have : L.length = (recordsOf (extractDict (collOf L)) L).length := (List.length_map ..).symm
    rw [this, readSome_text hrne hrec]

/-- What the scripts write, the constructors read. -/
theorem prepare_read (junk : Nat) {X : Str} {L : List (Str × Nat × List Str)} (hp : parse X = some L) (hv : ValidColl (collOf L)) :
    ∃ T P, prepare X = some T ∧ Params.load junk T.stats = .ok P ∧ P.numTerms = (run (collOf L)).terms.length ∧ P.numCompl = L.length ∧
      T.read P = .ok (run (collOf L)) ∧ readSome P.numCompl T.mapped = readAll T.mapped ∧
      P.nodes.length = P.levels ∧ P.levels = numLevels ((mapDataset (extractDict (collOf L)) (collOf L)).map (·.2)) ∧
      P.nodes = (sortKeys (countNodes (((collOf L).map (fun r => r.2.map (tokenId (extractDict (collOf L))) ++ [0])).map (List.map dec)) ([].map dec) [])).map (·.2) := by
  have hm : maxStringLen (collOf L) ≤ MAX_CHARS := by
    obtain ⟨r, hr, he⟩ := hv.ready.files.maxLen_mem
    have := hv.chars r hr
    rw [he] at this
    exact this
  obtain ⟨T, P, h1, h2⟩ := prepareLines_read junk (parse_good hp) hv hm
  exact ⟨T, P, by unfold prepare; rw [hp]; exact h1, h2⟩

/-! ## Words -/

theorem splitAux_gap : ∀ (gap s : Str), (∀ b ∈ gap, isBlank b = true) → splitAux (gap ++ s) [] = splitAux s []
  | [], _, _ => rfl
  | b :: gap, s, h => by
      rw [List.cons_append]
      conv => lhs; unfold splitAux
      rw [if_pos (h b (by simp)), List.isEmpty_nil, if_pos rfl, splitAux_gap gap s (fun b hb => h b (List.mem_cons_of_mem _ hb))]

theorem split_of_words {s : Str} {ws : List Str} (h : Words s ws) : split s = ws := by
  unfold split
  induction h with
  | none hg =>
      have := splitAux_gap _ [] hg
      rw [List.append_nil] at this
      rw [this]
      rfl
  | @last gap w hg hne hw =>
      have := splitAux_word w [] [] hw
      rw [List.append_nil] at this
      rw [splitAux_gap _ _ hg, this, List.nil_append]
      unfold splitAux
      rw [if_neg (by simp [hne])]
  | @next gap w s b ws hg hne hw hb _ ih =>
      rw [List.append_assoc, splitAux_gap _ _ hg, splitAux_word _ _ _ hw, List.nil_append]
      conv => lhs; unfold splitAux
      rw [if_pos hb, if_neg (by simp [hne]), ih]

theorem words_aux : ∀ (s cur : Str), (∀ b ∈ cur, isBlank b = false) → Words (cur ++ s) (splitAux s cur)
  | [], cur, hc => by
      rw [List.append_nil]
      unfold splitAux
      split
      · rename_i h
        rw [List.isEmpty_iff] at h
        subst h
        exact .none (by simp)
      · rename_i h
        have : Words ([] ++ cur) [cur] := .last (by simp) (by simpa using h) hc
        exact this
  | b :: r, cur, hc => by
      unfold splitAux
      split
      · rename_i hb
        have ih := words_aux r [] (by simp)
        rw [List.nil_append] at ih
        split
        · rename_i h
          rw [List.isEmpty_iff] at h
          subst h
          rw [List.nil_append]
          revert ih
          generalize splitAux r [] = ws
          intro ih
          have hgap : ∀ gap : Str, (∀ b ∈ gap, isBlank b = true) → ∀ c ∈ b :: gap, isBlank c = true := by
            intro gap hg c hc
            rcases List.mem_cons.mp hc with rfl | hc
            · exact hb
            · exact hg c hc
          cases ih with
          | none hg => exact .none (hgap _ hg)
          | last hg hne hw => exact .last (gap := b :: _) (hgap _ hg) hne hw
          | next hg hne hw hb' hws => exact .next (gap := b :: _) (hgap _ hg) hne hw hb' hws
        · rename_i h
          exact .next (gap := []) (by simp) (by simpa using h) hc hb ih
      · rename_i hb
        have ih := words_aux r (cur ++ [b]) (by
          intro c hc'
          rw [List.mem_append, List.mem_singleton] at hc'
          rcases hc' with hc' | rfl
          · exact hc c hc'
          · simpa using hb)
        rw [List.append_assoc, List.singleton_append] at ih
        exact ih

theorem split_iff {s : Str} {ws : List Str} : split s = ws ↔ Words s ws :=
  ⟨fun h => h ▸ words_aux s [] (by simp), split_of_words⟩

end Pre

/-! ## Numbers in a file -/

theorem Stream.getU32_failed (old : Nat) {s : Stream} (h : s.fail = true) : Stream.getU32 old s = (old, s) := by
  obtain ⟨rest, eof, fail⟩ := s
  dsimp only at h
  subst h
  have : Stream.sentry ⟨rest, eof, true⟩ = ⟨rest, eof, true⟩ := by
    unfold Stream.sentry
    rw [if_pos (by simp)]
  unfold Stream.getU32
  rw [this]
  rfl

/-- the rest of a file of numerals -/
structure Left (es : List (Str × Str)) (s : Stream) : Prop where
  good : s.fail = false → s.eof = false ∧ ∃ w : Str, w.all isSpace = true ∧ s.rest = w ++ Spec.textOfNumerals es
  failed : s.fail = true → es = []

theorem Left.next {e : Str × Str} {es : List (Str × Str)} (he : Spec.Numeral e) {s : Stream} (h : Left (e :: es) s) (old : Nat) :
    ∃ t, s.getU32 old = (num e.1, t) ∧ t.fail = false ∧ Left es t := by
  have hf : s.fail = false := by
    cases hf : s.fail with
    | false => rfl
    | true => exact absurd (h.failed hf) (by simp)
  obtain ⟨he', w, hw, hr⟩ := h.good hf
  obtain ⟨rest, eof, fail⟩ := s
  dsimp only at hf he' hr
  subst hf he' hr
  refine ⟨⟨e.2 ++ Spec.textOfNumerals es, false, false⟩, ?_, rfl, ⟨fun _ => ⟨rfl, e.2, he.blank, rfl⟩, by simp⟩⟩
  have hx : Spec.textOfNumerals (e :: es) = e.1 ++ (e.2 ++ Spec.textOfNumerals es) := by
    unfold Spec.textOfNumerals
    rw [List.flatMap_cons, List.append_assoc]
  have hne := he.sep
  have hbl := he.blank
  cases h2 : e.2 with
  | nil => exact absurd h2 hne
  | cons b r =>
      rw [h2] at hx hbl
      have hb : isSpace b = true := by
        rw [List.all_cons, Bool.and_eq_true] at hbl
        exact hbl.1
      rw [hx, Stream.getU32_num old hw he.ne he.digits he.small (by
        rw [List.cons_append]
        unfold EndsNum
        cases hd : isDigit b with
        | false => exact hd
        | true => rw [digit_not_space hd] at hb; exact absurd hb (by simp))]
      rfl

theorem Left.none {s : Stream} (h : Left [] s) (old : Nat) : ∃ t, s.getU32 old = (old, t) ∧ t.fail = true ∧ Left [] t := by
  cases hf : s.fail with
  | true => exact ⟨s, Stream.getU32_failed old hf, hf, h⟩
  | false =>
      obtain ⟨he, w, hw, hr⟩ := h.good hf
      obtain ⟨rest, eof, fail⟩ := s
      dsimp only at hf he hr
      subst hf he hr
      refine ⟨⟨[], true, true⟩, ?_, rfl, ⟨by simp, fun _ => rfl⟩⟩
      unfold Stream.getU32
      have : Spec.textOfNumerals [] = [] := rfl
      rw [this, List.append_nil, Stream.sentry_end hw]
      rfl

/-- reading the next of some numerals -/
theorem Left.get {es : List (Str × Str)} (hes : ∀ e ∈ es, Spec.Numeral e) {s : Stream} (h : Left es s) (old : Nat) :
    ∃ t, s.getU32 old = ((es.map (fun e => num e.1)).getD 0 old, t) ∧ t.fail = es.isEmpty ∧ Left (es.drop 1) t := by
  cases es with
  | nil => exact h.none old
  | cons e es =>
      obtain ⟨t, h1, h2, h3⟩ := h.next (hes e (by simp)) old
      exact ⟨t, h1, h2, h3⟩

theorem readNodes_left : ∀ (n : Nat) (es : List (Str × Str)) (s : Stream), (∀ e ∈ es, Spec.Numeral e) → Left es s → s.fail = false →
    readNodes n s = (((es.map (fun e : Str × Str => num e.1)) ++ List.replicate n 0).take n, n - (es.length + 1))
  | 0, _, _, _, _, _ => by simp [readNodes]
  | n + 1, [], s, hes, h, hf => by
      obtain ⟨t, h1, h2, h3⟩ := h.none 0
      unfold readNodes
      rw [hf, if_neg (by simp), h1]
      dsimp only
      have : readNodes n t = (List.replicate n 0, n) := by
        cases n with
        | zero => rfl
        | succ n =>
            unfold readNodes
            rw [h2, if_pos rfl]
      rw [this]
      simp [List.replicate_succ]
  | n + 1, e :: es, s, hes, h, hf => by
      obtain ⟨t, h1, h2, h3⟩ := h.next (hes e (by simp)) 0
      unfold readNodes
      rw [hf, if_neg (by simp), h1]
      dsimp only
      rw [readNodes_left n es t (fun e he => hes e (List.mem_cons_of_mem _ he)) h3 h2]
      have : ((es.map (fun e : Str × Str => num e.1)) ++ List.replicate (n + 1) 0).take n = ((es.map (fun e : Str × Str => num e.1)) ++ List.replicate n 0).take n := by
        rw [List.take_append, List.take_append, List.take_replicate, List.take_replicate]
        congr 2
        omega
      simp [this]

theorem readNodes_failed {n : Nat} {s : Stream} (h : s.fail = true) : readNodes n s = (List.replicate n 0, n) := by
  cases n with
  | zero => rfl
  | succ n =>
      unfold readNodes
      rw [h, if_pos rfl]

/-- what `parameters::load` makes of a file of numerals -/
theorem load_numerals (junk : Nat) {es : List (Str × Str)} (hes : ∀ e ∈ es, Spec.Numeral e) :
    Params.load junk (Spec.textOfNumerals es) =
      (let v := es.map (fun e => num e.1)
       if v.getD 1 0 > MAX_CHARS ∨ v.getD 4 0 > MAX_TERMS ∨ es.length + 1 < 5 + v.getD 4 0 ∧ 5 ≤ es.length then .error .thrown
       else .ok ⟨v.getD 0 0, v.getD 1 0, v.getD 2 0, v.getD 3 junk, v.getD 4 0, (v.drop 5 ++ List.replicate (v.getD 4 0) 0).take (v.getD 4 0)⟩) := by
  have hdr : ∀ n, ∀ e ∈ es.drop n, Spec.Numeral e := fun n e he => hes e (List.mem_of_mem_drop he)
  have h0 : Left es (.ofText (Spec.textOfNumerals es)) := ⟨fun _ => ⟨rfl, [], rfl, rfl⟩, by simp [Stream.ofText]⟩
  obtain ⟨s1, a1, b1, h1⟩ := h0.get hes 0
  obtain ⟨s2, a2, b2, h2⟩ := h1.get (hdr 1) 0
  rw [List.drop_drop] at h2
  obtain ⟨s3, a3, b3, h3⟩ := h2.get (hdr 2) 0
  rw [List.drop_drop] at h3
  obtain ⟨s4, a4, b4, h4⟩ := h3.get (hdr 3) junk
  rw [List.drop_drop] at h4
  obtain ⟨s5, a5, b5, h5⟩ := h4.get (hdr 4) 0
  rw [List.drop_drop] at h5
  have hv : ∀ n old, ((es.drop n).map (fun e => num e.1)).getD 0 old = (es.map (fun e => num e.1)).getD n old := by
    intro n old
    rw [List.getD_eq_getElem?_getD, List.getD_eq_getElem?_getD, List.map_drop, List.getElem?_drop]
    rfl
  rw [hv] at a2 a3 a4 a5
  unfold Params.load
  rw [a1]
  dsimp only
  rw [a2]
  dsimp only
  rw [a3]
  dsimp only
  rw [a4]
  dsimp only
  rw [a5]
  dsimp only
  by_cases c1 : (es.map (fun e => num e.1)).getD 1 0 > MAX_CHARS
  · rw [if_pos c1, if_pos (Or.inl c1)]
  rw [if_neg c1]
  by_cases c2 : (es.map (fun e => num e.1)).getD 4 0 > MAX_TERMS
  · rw [if_pos c2, if_pos (Or.inr (Or.inl c2))]
  rw [if_neg c2]
  by_cases c3 : 5 ≤ es.length
  · have hf : s5.fail = false := by
      rw [b5]
      cases hd : es.drop 4 with
      | nil =>
          rw [List.drop_eq_nil_iff] at hd
          omega
      | cons _ _ => rfl
    rw [readNodes_left _ _ _ (hdr 5) h5 hf]
    dsimp only
    rw [List.length_drop, List.map_drop]
    by_cases c4 : es.length + 1 < 5 + (es.map (fun e => num e.1)).getD 4 0
    · rw [if_pos (by omega), if_pos (Or.inr (Or.inr ⟨c4, c3⟩))]
    · rw [if_neg (by omega), if_neg (fun h => h.elim c1 (fun h => h.elim c2 (fun h => c4 h.1)))]
  · have hf : s5.fail = true := by
      rw [b5, List.isEmpty_iff, List.drop_eq_nil_iff]
      omega
    have hz : (es.map (fun e => num e.1)).getD 4 0 = 0 := by
      rw [List.getD_eq_getElem?_getD, List.getElem?_eq_none (by rw [List.length_map]; omega)]
      rfl
    rw [readNodes_failed hf, hz]
    dsimp only
    rw [if_neg (by simp), if_neg (by rw [hz] at c2; exact fun h => h.elim c1 (fun h => h.elim c2 (fun h => c3 h.2)))]
    simp

/-! ## Bad files -/

theorem readTerms_failed : ∀ (fuel x : Nat) (acc : Ids) (s : Stream), x ≠ 0 → s.fail = true → s.eof = false → readTerms fuel x acc s = .error .diverge
  | 0, _, _, _, _, _, _ => rfl
  | fuel + 1, x, acc, s, hx, hf, he => by
      unfold readTerms
      rw [he, Bool.false_or, if_neg (by simpa using hx), Stream.getU32_failed x hf]
      dsimp only
      exact readTerms_failed fuel x _ s hx hf he

theorem readLists_missing : ∀ (n : Nat) (w : Str) (f : Bool), w.all isSpace = true → readLists n (if f then ⟨[], true, true⟩ else ⟨w, false, false⟩) = .ok (List.replicate n [])
  | 0, _, _, _ => rfl
  | n + 1, w, f, hw => by
      have hg : Stream.getU32 0 (if f then ⟨[], true, true⟩ else ⟨w, false, false⟩) = (0, ⟨[], true, true⟩) := by
        cases f with
        | true => exact Stream.getU32_failed 0 rfl
        | false =>
            have : (if false = true then (⟨[], true, true⟩ : Stream) else ⟨w, false, false⟩) = ⟨w, false, false⟩ := rfl
            rw [this]
            unfold Stream.getU32
            rw [Stream.sentry_end hw]
            rfl
      unfold readLists
      rw [hg]
      have ih := readLists_missing n w true hw
      rw [if_pos rfl] at ih
      dsimp only [readIds]
      rw [M.ok_bind]
      dsimp only
      rw [ih, M.ok_bind, List.replicate_succ]

theorem readLists_truncated (m : Nat) : ∀ (ls : List (List Nat)) (w : Str), w.all isSpace = true → (∀ l ∈ ls, l.length < 2 ^ 32 ∧ ∀ x ∈ l, x < 2 ^ 32) →
    readLists (ls.length + m) ⟨w ++ ls.flatMap Pre.listText, false, false⟩ = .ok (ls ++ List.replicate m [])
  | [], w, hw, _ => by
      have := readLists_missing m w false hw
      rw [if_neg (by simp)] at this
      simpa using this
  | l :: ls, w, hw, h => by
      obtain ⟨h1, h2⟩ := h l (by simp)
      have ih := readLists_truncated m ls ((if l = [] then [32] else []) ++ [10]) (by split <;> decide) (fun l hl => h l (List.mem_cons_of_mem _ hl))
      have hj : ∀ R : Str, Pre.listText l ++ R = Pre.dec l.length ++ (32 :: (Pre.join (l.map Pre.dec) ++ 10 :: R)) := by
        intro R
        unfold Pre.listText
        simp
      rw [List.length_cons, List.flatMap_cons, hj, Nat.add_right_comm]
      generalize ls.flatMap Pre.listText = R at ih ⊢
      unfold readLists
      rw [Stream.getU32_num 0 hw (dec_ne _) (dec_digits _) (by rw [num_dec]; exact h1) (r := _) (by simp [EndsNum, isDigit]), num_dec]
      dsimp only
      have := readIds_join l [32] R (by decide) h2
      rw [List.cons_append, List.nil_append] at this
      rw [List.isEmpty_cons, this, M.ok_bind]
      dsimp only
      rw [List.append_assoc, List.cons_append, List.nil_append] at ih
      rw [ih]
      rfl

theorem InvBuilder.addAll_append (b : InvBuilder) : ∀ (ls ms : List (List Nat)), b.addAll (ls ++ ms) = (b.addAll ls >>= fun b => b.addAll ms)
  | ls, ms => by
      induction ls generalizing b with
      | nil => rfl
      | cons l ls ih =>
          have hc : ∀ l' ls', b.addAll (l' :: ls') = (b.add l' >>= fun b => b.addAll ls') := fun _ _ => rfl
          rw [List.cons_append, hc, hc]
          cases b.add l with
          | error f => rfl
          | ok b' =>
              rw [M.ok_bind, M.ok_bind]
              exact ih b'

/-- a list that is missing -/
theorem InvBuilder.mk'_missing {univ : Nat} {ls : List (List Nat)} {b : InvBuilder} (h : InvBuilder.mk' univ ls = .ok b) {m n : Nat} (hn : 0 < n) :
    InvBuilder.mk' univ (ls.take m ++ List.replicate n []) = .error .oob := by
  unfold InvBuilder.mk' at h ⊢
  rw [← List.take_append_drop m ls, InvBuilder.addAll_append] at h
  rw [InvBuilder.addAll_append]
  cases ha : InvBuilder.addAll ⟨0, univ, [0], [], BVB.empty⟩ (ls.take m) with
  | error f => rw [ha] at h; exact absurd h (by rw [M.error_bind, M.error_bind]; simp)
  | ok b' =>
      obtain ⟨n, rfl⟩ : ∃ k, n = k + 1 := ⟨n - 1, by omega⟩
      rw [M.ok_bind, List.replicate_succ]
      rfl

end AC
