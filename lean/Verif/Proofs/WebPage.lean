import Verif.Spec.WebPage
import Verif.Model.WebPage
/-!
# Lemmas about `formatResult` of the web page
-/
namespace AC
open Spec

namespace Page

/-! ## words -/

/-- `Spec.IsWord` with the white space of the model -/
def PWord (s w : Str) : Prop :=
  w ≠ [] ∧ (∀ c ∈ w, isSpace c = false) ∧
    ∃ a b, s = a ++ w ++ b ∧ (∀ c ∈ a.getLast?, isSpace c = true) ∧ (∀ c ∈ b.head?, isSpace c = true)

theorem isSpace_iff (c : Nat) : isSpace c = true ↔ c ∈ whiteSpace := by
  unfold isSpace whiteSpace
  simp only [Bool.or_eq_true, Bool.and_eq_true, decide_eq_true_eq, beq_iff_eq, List.mem_cons, List.not_mem_nil, or_false]
  omega

theorem isWord_iff {s w : Str} : IsWord s w ↔ PWord s w := by
  unfold IsWord PWord
  simp only [← isSpace_iff, Bool.not_eq_true]

theorem isWord_break {cur r w : Str} {c : Nat} (hc : isSpace c = true) (hcur : ∀ x ∈ cur, isSpace x = false) :
    PWord (cur ++ c :: r) w ↔ (w = cur ∧ w ≠ []) ∨ PWord r w := by
  constructor
  · rintro ⟨h1, h2, a, b, e, ha, hb⟩
    rw [List.append_assoc] at e
    rcases List.append_eq_append_iff.mp e with ⟨a', e1, e2⟩ | ⟨a', e1, e2⟩
    · right
      cases a' with
      | nil =>
          cases w with
          | nil => exact absurd rfl h1
          | cons x w =>
              simp only [List.nil_append, List.cons_append, List.cons.injEq] at e2
              have := h2 x (by simp)
              rw [← e2.1, hc] at this; cases this
      | cons y a'' =>
          simp only [List.cons_append, List.cons.injEq] at e2
          refine ⟨h1, h2, a'', b, by rw [List.append_assoc]; exact e2.2, ?_, hb⟩
          intro z hz
          apply ha
          rw [e1]
          cases a'' with
          | nil => simp at hz
          | cons u v =>
              rw [List.getLast?_append, List.getLast?_cons_cons]
              simp only [Option.mem_def] at hz ⊢
              rw [hz]; rfl
    · left
      have ha0 : a = [] := by
        apply Classical.byContradiction; intro hne
        obtain ⟨z, hz⟩ : ∃ z, a.getLast? = some z := ⟨_, List.getLast?_eq_some_getLast hne⟩
        have h3 := ha z hz
        have h4 := hcur z (by rw [e1]; exact List.mem_append_left _ (List.mem_of_getLast? hz))
        rw [h3] at h4; cases h4
      subst ha0
      rw [List.nil_append] at e1
      subst e1
      refine ⟨?_, h1⟩
      rcases List.append_eq_append_iff.mp e2 with ⟨x, f1, f2⟩ | ⟨x, f1, f2⟩
      · cases x with
        | nil => simpa using f1.symm
        | cons z x =>
            have h3 := hb z (by rw [f2]; simp)
            have h4 := hcur z (by rw [f1]; simp)
            rw [h3] at h4; cases h4
      · cases x with
        | nil => simpa using f1
        | cons z x =>
            simp only [List.cons_append, List.cons.injEq] at f2
            have h4 := h2 z (by rw [f1]; simp)
            rw [← f2.1, hc] at h4; cases h4
  · rintro (⟨rfl, h⟩ | ⟨h1, h2, a, b, e, ha, hb⟩)
    · refine ⟨h, hcur, [], c :: r, by simp, by simp, ?_⟩
      intro z hz
      simp only [List.head?_cons, Option.mem_def, Option.some.injEq] at hz
      rw [← hz]; exact hc
    · refine ⟨h1, h2, cur ++ c :: a, b, by rw [e]; simp, ?_, hb⟩
      intro z hz
      rw [List.getLast?_append] at hz
      cases a with
      | nil =>
          simp only [List.getLast?_singleton, Option.some_or, Option.mem_def, Option.some.injEq] at hz
          rw [← hz]; exact hc
      | cons u v =>
          apply ha
          rw [List.getLast?_cons_cons] at hz
          obtain ⟨y, hy⟩ : ∃ y, (u :: v).getLast? = some y := ⟨_, List.getLast?_eq_some_getLast (by simp)⟩
          rw [hy] at hz ⊢
          simpa using hz

theorem isWord_space {r w : Str} {c : Nat} (hc : isSpace c = true) : PWord (c :: r) w ↔ PWord r w := by
  have := isWord_break (cur := []) (r := r) (w := w) hc (by simp)
  rw [List.nil_append] at this
  rw [this]
  constructor
  · rintro (⟨rfl, h⟩ | h)
    · exact absurd rfl h
    · exact h
  · exact Or.inr

theorem isWord_whole {cur w : Str} (hcur : ∀ x ∈ cur, isSpace x = false) : PWord cur w ↔ w = cur ∧ w ≠ [] := by
  constructor
  · rintro ⟨h1, h2, a, b, e, ha, hb⟩
    refine ⟨?_, h1⟩
    have ha0 : a = [] := by
      apply Classical.byContradiction; intro hne
      obtain ⟨z, hz⟩ : ∃ z, a.getLast? = some z := ⟨_, List.getLast?_eq_some_getLast hne⟩
      have h3 := ha z hz
      have h4 := hcur z (by rw [e]; simp [List.mem_of_getLast? hz])
      rw [h3] at h4; cases h4
    have hb0 : b = [] := by
      cases b with
      | nil => rfl
      | cons z b =>
          have h3 := hb z (by simp)
          have h4 := hcur z (by rw [e]; simp)
          rw [h3] at h4; cases h4
    rw [e, ha0, hb0]; simp
  · rintro ⟨rfl, h⟩
    exact ⟨h, hcur, [], [], by simp, by simp, by simp⟩

theorem splitLoop_mem : ∀ (s cur : Str) (sep : Bool), (∀ x ∈ cur, isSpace x = false) → (sep = true → cur = []) → ∀ w,
    (w ∈ splitLoop s cur sep ∧ w ≠ []) ↔ PWord (cur ++ s) w := by
  intro s
  induction s with
  | nil =>
      intro cur sep h1 h2 w
      rw [List.append_nil, isWord_whole h1]
      simp [splitLoop]
  | cons c r ih =>
      intro cur sep h1 h2 w
      unfold splitLoop
      by_cases hc : isSpace c = true
      · rw [if_pos hc, isWord_break hc h1]
        have hr := ih [] true (by simp) (fun _ => rfl) w
        rw [List.nil_append] at hr
        cases sep with
        | true =>
            rw [if_pos rfl, hr, h2 rfl]
            constructor
            · exact Or.inr
            · rintro (⟨rfl, h⟩ | h)
              · exact absurd rfl h
              · exact h
        | false =>
            rw [if_neg (by simp), List.mem_cons, ← hr]
            constructor
            · rintro ⟨h | h, h'⟩
              · exact Or.inl ⟨h, h'⟩
              · exact Or.inr ⟨h, h'⟩
            · rintro (⟨h, h'⟩ | ⟨h, h'⟩)
              · exact ⟨Or.inl h, h'⟩
              · exact ⟨Or.inr h, h'⟩
      · rw [if_neg hc]
        have := ih (cur ++ [c]) false (by
          intro x hx
          rcases List.mem_append.mp hx with h | h
          · exact h1 x h
          · rw [List.mem_singleton.mp h]; simpa using hc) (by simp) w
        rw [this]
        simp

theorem splitLoop_ne : ∀ (s cur : Str) (sep : Bool), (∀ x ∈ s.getLast?, isSpace x = false) → (s = [] → cur ≠ []) →
    (sep = false → cur ≠ [] ∨ ∀ x ∈ s.head?, isSpace x = false) → [] ∉ splitLoop s cur sep := by
  intro s
  induction s with
  | nil =>
      intro cur sep _ h2 _
      simpa [splitLoop] using h2
  | cons c r ih =>
      intro cur sep h1 h2 h3
      have hl : r ≠ [] → ∀ x ∈ r.getLast?, isSpace x = false := by
        intro hr x hx
        apply h1
        cases r with
        | nil => exact absurd rfl hr
        | cons u v => rw [List.getLast?_cons_cons]; exact hx
      have hl' : ∀ x ∈ r.getLast?, isSpace x = false := by
        cases r with
        | nil => simp
        | cons u v => exact hl (by simp)
      unfold splitLoop
      by_cases hc : isSpace c = true
      · rw [if_pos hc]
        have hr : r ≠ [] := by
          rintro rfl
          have := h1 c (by simp)
          rw [hc] at this; cases this
        have hrec := ih [] true hl' (fun h => absurd h hr) (by simp)
        cases sep with
        | true => rw [if_pos rfl]; exact hrec
        | false =>
            rw [if_neg (by simp), List.mem_cons]
            rintro (h | h)
            · rcases h3 rfl with h4 | h4
              · exact h4 h.symm
              · have := h4 c (by simp)
                rw [hc] at this; cases this
            · exact hrec h
      · rw [if_neg hc]
        exact ih _ _ hl' (by simp) (by simp)

theorem isWord_reverse {s w : Str} : PWord s.reverse w.reverse ↔ PWord s w := by
  have key : ∀ {s w : Str}, PWord s w → PWord s.reverse w.reverse := by
    rintro s w ⟨h1, h2, a, b, e, ha, hb⟩
    refine ⟨by simpa using h1, by simpa using h2, b.reverse, a.reverse, by rw [e]; simp, ?_, ?_⟩
    · intro c hc; rw [List.getLast?_reverse] at hc; exact hb c hc
    · intro c hc; rw [List.head?_reverse] at hc; exact ha c hc
  constructor
  · intro h
    have := key h
    simpa using this
  · exact key

theorem isWord_dropWhile {w : Str} : ∀ s : Str, PWord (s.dropWhile isSpace) w ↔ PWord s w
  | [] => Iff.rfl
  | c :: s => by
      rw [List.dropWhile_cons]
      by_cases hc : isSpace c = true
      · rw [if_pos hc, isWord_space hc]
        exact isWord_dropWhile s
      · rw [if_neg hc]

theorem isWord_trim {s w : Str} : PWord (trim s) w ↔ PWord s w := by
  unfold trim
  rw [← isWord_reverse, List.reverse_reverse, isWord_dropWhile, isWord_reverse, isWord_dropWhile]

theorem head_dropWhile : ∀ s : Str, ∀ x ∈ (s.dropWhile isSpace).head?, isSpace x = false
  | [] => by simp
  | c :: s => by
      rw [List.dropWhile_cons]
      by_cases hc : isSpace c = true
      · rw [if_pos hc]; exact head_dropWhile s
      · rw [if_neg hc]
        intro x hx
        simp only [List.head?_cons, Option.mem_def, Option.some.injEq] at hx
        rw [← hx]; simpa using hc

theorem trim_last (s : Str) : ∀ x ∈ (trim s).getLast?, isSpace x = false := by
  intro x hx
  unfold trim at hx
  rw [List.getLast?_reverse] at hx
  exact head_dropWhile _ x hx

theorem dropWhile_suffix (s : Str) : ∃ a, s = a ++ s.dropWhile isSpace := ⟨s.takeWhile isSpace, (List.takeWhile_append_dropWhile).symm⟩

theorem trim_head (s : Str) : ∀ x ∈ (trim s).head?, isSpace x = false := by
  intro x hx
  obtain ⟨a, ha⟩ := dropWhile_suffix (s.dropWhile isSpace).reverse
  have : s.dropWhile isSpace = trim s ++ a.reverse := by
    unfold trim
    have := congrArg List.reverse ha
    simpa using this
  apply head_dropWhile s
  rw [this]
  cases ht : trim s with
  | nil => rw [ht] at hx; simp at hx
  | cons u v => rw [ht] at hx; simpa using hx

/-- the keywords are the words typed, or there is only the empty one -/
theorem keywords (s : Str) : (∀ w, w ∈ split (trim s) ∧ w ≠ [] ↔ IsWord s w) ∧ (split (trim s) = [[]] ∨ [] ∉ split (trim s)) := by
  constructor
  · intro w
    rw [isWord_iff, ← isWord_trim]
    have := splitLoop_mem (trim s) [] false (by simp) (by simp) w
    rw [List.nil_append] at this
    exact this
  · by_cases h : trim s = []
    · left; rw [h]; rfl
    · right
      exact splitLoop_ne (trim s) [] false (trim_last s) (fun h' => absurd h' h) (fun _ => Or.inr (trim_head s))

theorem split_mem_sub {s w : Str} {c : Nat} (hw : w ∈ split (trim s)) (hc : c ∈ w) : c ∈ s := by
  have hne : w ≠ [] := by rintro rfl; simp at hc
  obtain ⟨_, _, a, b, e, _, _⟩ := (keywords s).1 w |>.mp ⟨hw, hne⟩
  rw [e]; simp [hc]

theorem split_ne_nil (s : Str) : ∀ cur sep, splitLoop s cur sep ≠ [] := by
  induction s with
  | nil => intro cur sep; simp [splitLoop]
  | cons c r ih =>
      intro cur sep
      unfold splitLoop
      split
      · split
        · exact ih _ _
        · simp
      · exact ih _ _

/-! ## the pattern -/

/-- a word as an expression -/
def lit : Str → Re
  | [] => .empty
  | c :: w => .seq (.char c) (lit w)

/-- one of several words -/
def oneOf : List Str → Re
  | [] => .empty
  | [w] => lit w
  | w :: ws => .alt (lit w) (oneOf ws)

/-- code units that stand for themselves -/
def Plain (w : Str) : Prop := ∀ c ∈ w, c ≠ 40 ∧ c ≠ 41 ∧ c ≠ 124

theorem cons_lit (c : Nat) (w : Str) : Re.cons (.char c) (lit w) = lit (c :: w) := by cases w <;> rfl

theorem alternatives_last : ∀ (w : Str) (fuel n : Nat), Plain w → w.length < fuel → alternatives fuel (w ++ [41]) n = .ok (lit w, [41], n) := by
  intro w
  induction w with
  | nil =>
      intro fuel n _ hf
      cases fuel with
      | zero => omega
      | succ fuel => rw [List.nil_append]; unfold alternatives; rw [if_pos rfl]; rfl
  | cons c w ih =>
      intro fuel n hp hf
      cases fuel with
      | zero => omega
      | succ fuel =>
          obtain ⟨h1, h2, h3⟩ := hp c (by simp)
          rw [List.cons_append]; unfold alternatives
          rw [if_neg h2, if_neg h3, if_neg h1, ih fuel n (fun x hx => hp x (by simp [hx])) (by simpa using hf)]
          simp only [M.ok_bind]
          rw [cons_lit]

theorem alternatives_more {b : Re} {r r' : Str} {n m : Nat} : ∀ (w : Str) (fuel : Nat), Plain w → w.length < fuel →
    (∀ k, fuel - w.length - 1 ≤ k → k ≤ fuel → alternatives k r n = .ok (b, r', m)) →
    alternatives fuel (w ++ 124 :: r) n = .ok (.alt (lit w) b, r', m) := by
  intro w
  induction w with
  | nil =>
      intro fuel _ hf h
      cases fuel with
      | zero => omega
      | succ fuel =>
          rw [List.nil_append]; unfold alternatives
          rw [if_neg (by decide), if_pos rfl, h fuel (by simp) (by omega)]
          rfl
  | cons c w ih =>
      intro fuel hp hf h
      cases fuel with
      | zero => omega
      | succ fuel =>
          obtain ⟨h1, h2, h3⟩ := hp c (by simp)
          simp only [List.length_cons] at hf h
          rw [List.cons_append]; unfold alternatives
          rw [if_neg h2, if_neg h3, if_neg h1, ih fuel (fun x hx => hp x (by simp [hx])) (by omega)
            (fun k hk1 hk2 => h k (by omega) (by omega))]
          rfl

theorem alternatives_join : ∀ (ws : List Str) (fuel n : Nat), ws ≠ [] → (∀ w ∈ ws, Plain w) → (join ws).length < fuel →
    alternatives fuel (join ws ++ [41]) n = .ok (oneOf ws, [41], n)
  | [], _, _, h, _, _ => absurd rfl h
  | [w], fuel, n, _, hp, hf => alternatives_last w fuel n (hp w (by simp)) hf
  | w :: u :: ws, fuel, n, _, hp, hf => by
      have hj : join (w :: u :: ws) = w ++ 124 :: join (u :: ws) := rfl
      rw [hj] at hf ⊢
      simp only [List.length_append, List.length_cons] at hf
      rw [List.append_assoc, List.cons_append]
      exact alternatives_more w fuel (hp w (by simp)) (by omega) (fun k h1 _ =>
        alternatives_join (u :: ws) k n (by simp) (fun x hx => hp x (by simp [hx])) (by omega))

theorem compile_join {ws : List Str} (h : ws ≠ []) (hp : ∀ w ∈ ws, Plain w) :
    compile ([40] ++ join ws ++ [41]) = .ok (.seq (.group 1 (oneOf ws)) .empty) := by
  unfold compile
  rw [List.append_assoc, List.singleton_append, List.length_cons]
  have e1 : alternatives ((join ws ++ [41]).length + 1 + 1) (40 :: (join ws ++ [41])) 0 = .ok (.seq (.group 1 (oneOf ws)) .empty, [], 1) := by
    rw [alternatives, if_neg (by decide), if_neg (by decide), if_pos rfl, alternatives_join ws _ 1 h hp (by rw [List.length_append]; exact Nat.lt_succ_of_le (Nat.le_add_right _ _))]
    rfl
  rw [e1]
  rfl

/-! ## matches -/

/-- the word `w` matches at the beginning of `s` -/
def fits (canon : Nat → Nat) (s w : Str) : Bool := decide ((s.take w.length).map canon = w.map canon)

theorem fits_length {canon : Nat → Nat} {s w : Str} (h : fits canon s w = true) : w.length ≤ s.length := by
  have := congrArg List.length (of_decide_eq_true h)
  simp at this
  omega

theorem run_lit (canon : Nat → Nat) : ∀ (w s : Str) (g : Option Str),
    run canon (lit w) s g = if fits canon s w = true then [(s.drop w.length, g)] else []
  | [], s, g => by simp [lit, run, fits]
  | c :: w, [], g => by simp [lit, run, fits]
  | c :: w, x :: s, g => by
      have ih := run_lit canon w s g
      unfold lit run
      by_cases hx : canon x = canon c
      · have hf : fits canon (x :: s) (c :: w) = fits canon s w := by simp [fits, hx]
        rw [hf]
        simp only [run, if_pos hx, List.flatMap_cons, List.flatMap_nil, List.append_nil, List.length_cons, List.drop_succ_cons]
        exact ih
      · have hf : fits canon (x :: s) (c :: w) = false := by simp [fits, hx]
        simp [run, if_neg hx, hf]

theorem run_oneOf (canon : Nat → Nat) : ∀ (ws : List Str) (s : Str) (g : Option Str), ws ≠ [] →
    run canon (oneOf ws) s g = (ws.filter (fits canon s)).map fun w => (s.drop w.length, g)
  | [], _, _, h => absurd rfl h
  | [w], s, g, _ => by
      unfold oneOf
      rw [run_lit]
      cases h : fits canon s w <;> simp [h]
  | w :: u :: ws, s, g, _ => by
      unfold oneOf run
      rw [run_lit, run_oneOf canon (u :: ws) s g (by simp), List.filter_cons (x := w)]
      cases h : fits canon s w <;> simp

theorem run_pattern (canon : Nat → Nat) {ws : List Str} (h : ws ≠ []) (s : Str) :
    (run canon (.seq (.group 1 (oneOf ws)) .empty) s none).head? =
      (ws.find? (fits canon s)).map fun w => (s.drop w.length, some (s.take w.length)) := by
  have e : run canon (.seq (.group 1 (oneOf ws)) .empty) s none =
      (ws.filter (fits canon s)).map fun w => (s.drop w.length, some (s.take (s.length - (s.drop w.length).length))) := by
    simp only [run, run_oneOf canon ws s none h, List.map_map, if_true]
    rw [List.flatMap_map]
    exact List.map_eq_flatMap.symm
  rw [e, List.head?_map, List.head?_filter]
  cases hf : ws.find? (fits canon s) with
  | none => rfl
  | some w =>
      have := fits_length (List.find?_some hf)
      simp only [Option.map_some, List.length_drop]
      rw [show s.length - (s.length - w.length) = w.length by omega]

/-! ## from the text to what is displayed -/

/-- tags and code units -/
inductive Tok where
  | op
  | cl
  | ch (c : Nat)

/-- the tokens put together by `mark` -/
def toks (canon : Nat → Nat) (ws : List Str) : Nat → Str → List Tok
  | 0, s => s.map .ch
  | fuel + 1, s =>
      match ws.find? (fits canon s) with
      | some w =>
          .op :: (s.take w.length).map .ch ++ .cl :: (if 0 < w.length then toks canon ws fuel (s.drop w.length)
             else match s with
              | [] => []
              | c :: r => .ch c :: toks canon ws fuel r)
      | none =>
          match s with
          | [] => []
          | c :: r => .ch c :: toks canon ws fuel r

/-- a token as `mark` writes it -/
def Tok.raw : Tok → Str
  | .op => openTag
  | .cl => closeTag
  | .ch c => [c]

/-- a code unit escaped -/
def esc (c : Nat) : Str :=
  if c = 38 then ampEntity else if c = 60 then ltEntity else if c = 62 then gtEntity else if c = 34 then quotEntity else [c]

/-- a token after `escape` -/
def Tok.escaped : Tok → Str
  | .op => openText
  | .cl => closeText
  | .ch c => esc c

/-- a token after `restore` -/
def Tok.final : Tok → Str
  | .op => openTag
  | .cl => closeTag
  | .ch c => esc c

/-- what tokens show -/
def paint : Bool → List Tok → List (Nat × Bool)
  | _, [] => []
  | _, .op :: ts => paint true ts
  | _, .cl :: ts => paint false ts
  | b, .ch c :: ts => (c, b) :: paint b ts

theorem raw_chars (s : Str) : (s.map Tok.ch).flatMap Tok.raw = s := by
  induction s with
  | nil => rfl
  | cons c s ih => simp only [List.map_cons, List.flatMap_cons, ih]; rfl

theorem mark_toks (canon : Nat → Nat) {ws : List Str} (h : ws ≠ []) : ∀ (fuel : Nat) (s : Str),
    mark canon (.seq (.group 1 (oneOf ws)) .empty) fuel s = (toks canon ws fuel s).flatMap Tok.raw := by
  intro fuel
  induction fuel with
  | zero => intro s; unfold mark toks; rw [raw_chars]
  | succ fuel ih =>
      intro s
      unfold mark toks
      rw [run_pattern canon h]
      cases hf : ws.find? (fits canon s) with
      | none =>
          cases s with
          | nil => rfl
          | cons c r => simp only [Option.map_none, List.flatMap_cons, ih]; rfl
      | some w =>
          have hl := fits_length (List.find?_some hf)
          simp only [Option.map_some, Option.getD_some, List.cons_append, List.flatMap_cons, List.flatMap_append, raw_chars]
          have e : openTag ++ s.take w.length ++ closeTag = Tok.raw .op ++ (s.take w.length ++ Tok.raw .cl) := by simp [Tok.raw]
          rw [e, List.append_assoc, List.append_assoc]
          by_cases h0 : 0 < w.length
          · rw [if_pos (by rw [List.length_drop]; omega), if_pos h0, ih]
          · rw [if_neg (by rw [List.length_drop]; omega), if_neg h0]
            cases s with
            | nil => rfl
            | cons c r => simp only [List.flatMap_cons, ih]; rfl

theorem escape_append (a b : Str) : escape (a ++ b) = escape a ++ escape b := by simp [escape, subst]

theorem escape_single (c : Nat) : escape [c] = esc c := by
  unfold esc
  split
  · rename_i h; subst h; decide
  · rename_i h1
    split
    · rename_i h; subst h; decide
    · rename_i h2
      split
      · rename_i h; subst h; decide
      · rename_i h3
        split
        · rename_i h; subst h; decide
        · rename_i h4
          simp [escape, subst, h1, h2, h3, h4]

theorem escape_toks : ∀ ts : List Tok, escape (ts.flatMap Tok.raw) = ts.flatMap Tok.escaped
  | [] => rfl
  | t :: ts => by
      rw [List.flatMap_cons, List.flatMap_cons, escape_append, escape_toks ts]
      congr 1
      cases t with
      | op => decide
      | cl => decide
      | ch c => exact escape_single c

theorem esc_head (c : Nat) : ∃ r, esc c = 38 :: r ∨ (esc c = [c] ∧ c ≠ 38 ∧ c ≠ 60 ∧ c ≠ 62 ∧ c ≠ 34) := by
  unfold esc
  split
  · exact ⟨_, Or.inl rfl⟩
  · split
    · exact ⟨_, Or.inl rfl⟩
    · split
      · exact ⟨_, Or.inl rfl⟩
      · split
        · exact ⟨_, Or.inl rfl⟩
        · exact ⟨[], Or.inr ⟨rfl, by assumption, by assumption, by assumption, by assumption⟩⟩

/-- text that starts with an ordinary code unit starts with that token -/
theorem starts_char {x : Nat} (hx : x ≠ 38) {y : Str} {ts : List Tok} (h : x :: y <+: ts.flatMap Tok.escaped) :
    ∃ ts', ts = .ch x :: ts' ∧ y <+: ts'.flatMap Tok.escaped := by
  cases ts with
  | nil => simp at h
  | cons t ts =>
      rw [List.flatMap_cons] at h
      cases t with
      | op => simp [Tok.escaped, openText, List.cons_prefix_cons, hx] at h
      | cl => simp [Tok.escaped, closeText, List.cons_prefix_cons, hx] at h
      | ch c =>
          simp only [Tok.escaped] at h
          obtain ⟨r, e | ⟨e, _⟩⟩ := esc_head c
          · rw [e, List.cons_append, List.cons_prefix_cons] at h
            exact absurd h.1 hx
          · rw [e, List.singleton_append, List.cons_prefix_cons] at h
            exact ⟨ts, by rw [h.1], h.2⟩

theorem starts_gt {ts : List Tok} (h : gtEntity <+: ts.flatMap Tok.escaped) : ∃ ts', ts = .ch 62 :: ts' := by
  cases ts with
  | nil => simp [gtEntity] at h
  | cons t ts =>
      rw [List.flatMap_cons] at h
      cases t with
      | op => simp [Tok.escaped, openText, gtEntity, List.cons_prefix_cons] at h
      | cl => simp [Tok.escaped, closeText, gtEntity, List.cons_prefix_cons] at h
      | ch c =>
          by_cases hc : c = 62
          · exact ⟨ts, by rw [hc]⟩
          · exfalso
            simp only [Tok.escaped, esc, if_neg hc] at h
            split at h
            · simp [gtEntity, ampEntity, List.cons_prefix_cons] at h
            · split at h
              · simp [gtEntity, ltEntity, List.cons_prefix_cons] at h
              · split at h
                · simp [gtEntity, quotEntity, List.cons_prefix_cons] at h
                · rename_i h1 _ _
                  simp only [gtEntity, List.singleton_append, List.cons_prefix_cons] at h
                  exact h1 h.1.symm

/-- the tokens contain neither `<strong>` nor `</strong>` as text -/
def Clean (ts : List Tok) : Prop := ¬ openTag.map Tok.ch <:+: ts ∧ ¬ closeTag.map Tok.ch <:+: ts

theorem Clean.tail {t : Tok} {ts : List Tok} (h : Clean (t :: ts)) : Clean ts :=
  ⟨fun h' => h.1 (h'.trans (List.suffix_cons _ _).isInfix), fun h' => h.2 (h'.trans (List.suffix_cons _ _).isInfix)⟩

theorem not_open {ts : List Tok} (h : Clean (.ch 60 :: ts)) : ¬ [115, 116, 114, 111, 110, 103] ++ gtEntity <+: ts.flatMap Tok.escaped := by
  intro hp
  obtain ⟨t1, rfl, hp1⟩ := starts_char (by decide) hp
  obtain ⟨t2, rfl, hp2⟩ := starts_char (by decide) hp1
  obtain ⟨t3, rfl, hp3⟩ := starts_char (by decide) hp2
  obtain ⟨t4, rfl, hp4⟩ := starts_char (by decide) hp3
  obtain ⟨t5, rfl, hp5⟩ := starts_char (by decide) hp4
  obtain ⟨t6, rfl, hp6⟩ := starts_char (by decide) hp5
  obtain ⟨t7, rfl⟩ := starts_gt hp6
  exact h.1 ⟨[], t7, rfl⟩

theorem not_close {ts : List Tok} (h : Clean (.ch 60 :: ts)) : ¬ [47, 115, 116, 114, 111, 110, 103] ++ gtEntity <+: ts.flatMap Tok.escaped := by
  intro hp
  obtain ⟨t0, rfl, hp0⟩ := starts_char (by decide) hp
  obtain ⟨t1, rfl, hp1⟩ := starts_char (by decide) hp0
  obtain ⟨t2, rfl, hp2⟩ := starts_char (by decide) hp1
  obtain ⟨t3, rfl, hp3⟩ := starts_char (by decide) hp2
  obtain ⟨t4, rfl, hp4⟩ := starts_char (by decide) hp3
  obtain ⟨t5, rfl, hp5⟩ := starts_char (by decide) hp4
  obtain ⟨t6, rfl, hp6⟩ := starts_char (by decide) hp5
  obtain ⟨t7, rfl⟩ := starts_gt hp6
  exact h.2 ⟨[], t7, rfl⟩

theorem restore_plain {fuel c : Nat} {r : Str} (hc : c ≠ 38) : restore (fuel + 1) (c :: r) = c :: restore fuel r := by
  conv => lhs; unfold restore
  have h1 : openText.isPrefixOf (c :: r) = false := by
    simp only [openText, List.isPrefixOf, Bool.and_eq_false_iff, beq_eq_false_iff_ne]
    exact Or.inl (Ne.symm hc)
  have h2 : closeText.isPrefixOf (c :: r) = false := by
    simp only [closeText, List.isPrefixOf, Bool.and_eq_false_iff, beq_eq_false_iff_ne]
    exact Or.inl (Ne.symm hc)
  rw [h1, h2]
  rfl

theorem restore_plains : ∀ (p : Str) (fuel : Nat) (r : Str), (∀ c ∈ p, c ≠ 38) → p.length ≤ fuel →
    restore fuel (p ++ r) = p ++ restore (fuel - p.length) r
  | [], fuel, r, _, _ => by simp
  | c :: p, fuel, r, h, hf => by
      cases fuel with
      | zero => simp at hf
      | succ fuel =>
          rw [List.cons_append, restore_plain (h c (by simp)), restore_plains p fuel r (fun x hx => h x (by simp [hx])) (by simpa using hf)]
          simp

theorem restore_amp {fuel : Nat} {r : Str} (h1 : ¬ openText <+: 38 :: r) (h2 : ¬ closeText <+: 38 :: r) :
    restore (fuel + 1) (38 :: r) = 38 :: restore fuel r := by
  conv => lhs; unfold restore
  rw [if_neg (by rw [List.isPrefixOf_iff_prefix]; exact h1), if_neg (by rw [List.isPrefixOf_iff_prefix]; exact h2)]

theorem restore_toks : ∀ (ts : List Tok) (fuel : Nat), Clean ts → (ts.flatMap Tok.escaped).length ≤ fuel →
    restore fuel (ts.flatMap Tok.escaped) = ts.flatMap Tok.final := by
  intro ts
  induction ts with
  | nil => intro fuel _ _; cases fuel <;> rfl
  | cons t ts ih =>
      intro fuel hcl hf
      rw [List.flatMap_cons, List.length_append] at hf
      rw [List.flatMap_cons, List.flatMap_cons]
      have ih' : ∀ n, (ts.flatMap Tok.escaped).length ≤ n → restore n (ts.flatMap Tok.escaped) = ts.flatMap Tok.final := fun n hn => ih n hcl.tail hn
      generalize hX : ts.flatMap Tok.escaped = X at *
      -- an entity that is not `&lt;`
      have ent : ∀ (p : Str), (∀ c ∈ p, c ≠ 38) → (∀ c ∈ p.head?, c ≠ 108) → p ≠ [] → (38 :: p).length + X.length ≤ fuel →
          restore fuel ((38 :: p) ++ X) = (38 :: p) ++ ts.flatMap Tok.final := by
        intro p h1 h2 h3 h4
        cases fuel with
        | zero => simp at h4
        | succ fuel =>
            cases p with
            | nil => exact absurd rfl h3
            | cons y p =>
                have hy := h2 y (by simp)
                rw [List.cons_append, restore_amp]
                · simp only [List.length_cons] at h4
                  rw [restore_plains _ _ _ h1 (by simp only [List.length_cons]; omega), ih' _ (by simp only [List.length_cons]; omega)]
                  rfl
                · simp only [openText, List.cons_append, List.cons_prefix_cons, true_and]
                  exact fun h => hy h.1.symm
                · simp only [closeText, List.cons_append, List.cons_prefix_cons, true_and]
                  exact fun h => hy h.1.symm
      cases t with
      | op =>
          cases fuel with
          | zero => simp [Tok.escaped, openText] at hf
          | succ fuel =>
              have e : restore (fuel + 1) (openText ++ X) = openTag ++ restore fuel X := by
                conv => lhs; rw [openText, List.cons_append, restore]
                rw [if_pos (by rw [List.isPrefixOf_iff_prefix]; exact ⟨X, rfl⟩)]
                congr 1
              simp only [Tok.escaped, Tok.final]
              rw [e, ih' _ (by simp [Tok.escaped, openText] at hf; omega)]
      | cl =>
          cases fuel with
          | zero => simp [Tok.escaped, closeText] at hf
          | succ fuel =>
              have e : restore (fuel + 1) (closeText ++ X) = closeTag ++ restore fuel X := by
                conv => lhs; rw [closeText, List.cons_append, restore]
                rw [if_neg (by rw [List.isPrefixOf_iff_prefix]; simp [openText, List.cons_prefix_cons]),
                  if_pos (by rw [List.isPrefixOf_iff_prefix]; exact ⟨X, rfl⟩)]
                congr 1
              simp only [Tok.escaped, Tok.final]
              rw [e, ih' _ (by simp [Tok.escaped, closeText] at hf; omega)]
      | ch c =>
          simp only [Tok.escaped, Tok.final] at hf ⊢
          by_cases h38 : c = 38
          · subst h38
            exact ent [97, 109, 112, 59] (by decide) (by decide) (by decide) hf
          by_cases h60 : c = 60
          · subst h60
            cases fuel with
            | zero => simp [esc, ltEntity] at hf
            | succ fuel =>
                have e : esc 60 = 38 :: [108, 116, 59] := by decide
                rw [e] at hf ⊢
                rw [List.cons_append, restore_amp]
                · simp only [List.length_cons, List.length_nil] at hf
                  rw [restore_plains _ _ _ (by decide) (by simp only [List.length_cons, List.length_nil]; omega),
                    ih' _ (by simp only [List.length_cons, List.length_nil]; omega)]
                  rfl
                · intro h
                  apply not_open hcl
                  rw [hX]
                  simpa [openText, gtEntity, List.cons_prefix_cons] using h
                · intro h
                  apply not_close hcl
                  rw [hX]
                  simpa [closeText, gtEntity, List.cons_prefix_cons] using h
          by_cases h62 : c = 62
          · subst h62
            exact ent [103, 116, 59] (by decide) (by decide) (by decide) hf
          by_cases h34 : c = 34
          · subst h34
            exact ent [113, 117, 111, 116, 59] (by decide) (by decide) (by decide) hf
          have e : esc c = [c] := by simp [esc, h38, h60, h62, h34]
          rw [e] at hf ⊢
          rw [restore_plains [c] _ _ (by simpa using h38) (by simp at hf ⊢; omega), ih' _ (by simp at hf ⊢; omega)]

theorem shows_cons (b : Bool) (c : Nat) (s : Str) (n : Nat) : shows b (c :: s) (n + 1) =
    if c = 60 then
      match s with
      | 115 :: 116 :: 114 :: 111 :: 110 :: 103 :: 62 :: r => shows true r n
      | 47 :: 115 :: 116 :: 114 :: 111 :: 110 :: 103 :: 62 :: r => shows false r n
      | _ => none
    else if c = 38 then
      match s with
      | 97 :: 109 :: 112 :: 59 :: r => (shows b r n).map ((38, b) :: ·)
      | 108 :: 116 :: 59 :: r => (shows b r n).map ((60, b) :: ·)
      | 103 :: 116 :: 59 :: r => (shows b r n).map ((62, b) :: ·)
      | 113 :: 117 :: 111 :: 116 :: 59 :: r => (shows b r n).map ((34, b) :: ·)
      | _ => none
    else (shows b s n).map ((c, b) :: ·) := rfl

theorem shows_toks : ∀ (ts : List Tok) (b : Bool) (n : Nat), (ts.flatMap Tok.final).length ≤ n →
    shows b (ts.flatMap Tok.final) n = some (paint b ts) := by
  intro ts
  induction ts with
  | nil => intro b n _; cases n <;> simp [shows, paint]
  | cons t ts ih =>
      intro b n hn
      rw [List.flatMap_cons] at hn ⊢
      generalize hX : ts.flatMap Tok.final = X at *
      rw [List.length_append] at hn
      cases n with
      | zero =>
          exfalso
          cases t with
          | op => simp [Tok.final, openTag] at hn
          | cl => simp [Tok.final, closeTag] at hn
          | ch c =>
              obtain ⟨r, e | ⟨e, _⟩⟩ := esc_head c
              · simp [Tok.final, e] at hn
              · simp [Tok.final, e] at hn
      | succ n =>
          cases t with
          | op =>
              simp only [Tok.final, openTag, List.cons_append, List.nil_append, List.length_cons, List.length_nil] at hn ⊢
              rw [shows_cons, if_pos rfl]
              exact ih true n (by omega)
          | cl =>
              simp only [Tok.final, closeTag, List.cons_append, List.nil_append, List.length_cons, List.length_nil] at hn ⊢
              rw [shows_cons, if_pos rfl]
              exact ih false n (by omega)
          | ch c =>
              simp only [Tok.final] at hn ⊢
              by_cases h38 : c = 38
              · subst h38
                rw [show esc 38 = [38, 97, 109, 112, 59] by decide] at hn ⊢
                simp only [List.cons_append, List.nil_append, List.length_cons, List.length_nil] at hn ⊢
                rw [shows_cons, if_neg (by decide), if_pos rfl]
                simp only [ih b n (by omega)]
                rfl
              by_cases h60 : c = 60
              · subst h60
                rw [show esc 60 = [38, 108, 116, 59] by decide] at hn ⊢
                simp only [List.cons_append, List.nil_append, List.length_cons, List.length_nil] at hn ⊢
                rw [shows_cons, if_neg (by decide), if_pos rfl]
                simp only [ih b n (by omega)]
                rfl
              by_cases h62 : c = 62
              · subst h62
                rw [show esc 62 = [38, 103, 116, 59] by decide] at hn ⊢
                simp only [List.cons_append, List.nil_append, List.length_cons, List.length_nil] at hn ⊢
                rw [shows_cons, if_neg (by decide), if_pos rfl]
                simp only [ih b n (by omega)]
                rfl
              by_cases h34 : c = 34
              · subst h34
                rw [show esc 34 = [38, 113, 117, 111, 116, 59] by decide] at hn ⊢
                simp only [List.cons_append, List.nil_append, List.length_cons, List.length_nil] at hn ⊢
                rw [shows_cons, if_neg (by decide), if_pos rfl]
                simp only [ih b n (by omega)]
                rfl
              rw [show esc c = [c] by simp [esc, h38, h60, h62, h34]] at hn ⊢
              simp only [List.cons_append, List.nil_append, List.length_cons, List.length_nil] at hn ⊢
              rw [shows_cons, if_neg h60, if_neg h38, ih b n (by omega)]
              rfl

/-! ## what is in bold -/

/-- the code units with their weight, by a scan from the left -/
def scan (canon : Nat → Nat) (ws : List Str) : Nat → Str → List (Nat × Bool)
  | 0, s => s.map (·, false)
  | fuel + 1, s =>
      match ws.find? (fits canon s) with
      | some w =>
          (s.take w.length).map (·, true) ++ (if 0 < w.length then scan canon ws fuel (s.drop w.length)
             else match s with
              | [] => []
              | c :: r => (c, false) :: scan canon ws fuel r)
      | none =>
          match s with
          | [] => []
          | c :: r => (c, false) :: scan canon ws fuel r

theorem paint_chars (b : Bool) : ∀ (s : Str) (ts : List Tok), paint b (s.map Tok.ch ++ ts) = s.map (·, b) ++ paint b ts
  | [], _ => rfl
  | c :: s, ts => by simp only [List.map_cons, List.cons_append, paint, paint_chars b s ts]

theorem paint_toks (canon : Nat → Nat) (ws : List Str) : ∀ (fuel : Nat) (s : Str), paint false (toks canon ws fuel s) = scan canon ws fuel s := by
  intro fuel
  induction fuel with
  | zero =>
      intro s
      unfold toks scan
      have := paint_chars false s []
      rw [List.append_nil] at this
      rw [this]; simp [paint]
  | succ fuel ih =>
      intro s
      unfold toks scan
      cases hf : ws.find? (fits canon s) with
      | none =>
          cases s with
          | nil => rfl
          | cons c r => simp only [paint, ih]
      | some w =>
          simp only [List.cons_append, paint, paint_chars]
          by_cases h0 : 0 < w.length
          · rw [if_pos h0, if_pos h0, ih]
          · rw [if_neg h0, if_neg h0]
            cases s with
            | nil => rfl
            | cons c r => simp only [paint, ih]

theorem scan_text (canon : Nat → Nat) (ws : List Str) : ∀ (fuel : Nat) (s : Str), (scan canon ws fuel s).map (·.1) = s := by
  intro fuel
  induction fuel with
  | zero => intro s; unfold scan; simp [Function.comp_def]
  | succ fuel ih =>
      intro s
      unfold scan
      cases hf : ws.find? (fits canon s) with
      | none =>
          cases s with
          | nil => rfl
          | cons c r => simp only [List.map_cons, ih]
      | some w =>
          simp only [List.map_append, List.map_map, Function.comp_def, List.map_id']
          by_cases h0 : 0 < w.length
          · rw [if_pos h0, ih, List.take_append_drop]
          · have : w.length = 0 := by omega
            rw [if_neg h0, this]
            cases s with
            | nil => rfl
            | cons c r => simp only [List.map_cons, ih, List.take_zero, List.nil_append]

theorem toks_text (canon : Nat → Nat) (ws : List Str) (fuel : Nat) (s : Str) :
    (toks canon ws fuel s).filterMap (fun t => match t with | .ch c => some c | _ => none) = s := by
  have key : ∀ (ts : List Tok) (b : Bool), ts.filterMap (fun t => match t with | .ch c => some c | _ => none) = (paint b ts).map (·.1) := by
    intro ts
    induction ts with
    | nil => intro b; rfl
    | cons t ts ih =>
        intro b
        cases t with
        | op => exact ih true
        | cl => exact ih false
        | ch c => simp only [List.filterMap_cons, paint, List.map_cons, ih b]
  rw [key _ false, paint_toks, scan_text]

theorem toks_clean (canon : Nat → Nat) (ws : List Str) (fuel : Nat) {s : Str} (h1 : ¬ openTag <:+: s) (h2 : ¬ closeTag <:+: s) :
    Clean (toks canon ws fuel s) := by
  have key : ∀ t : Str, t.map Tok.ch <:+: toks canon ws fuel s → t <:+: s := by
    intro t h
    have := h.filterMap (fun t => match t with | .ch c => some c | _ => none)
    rw [toks_text, List.filterMap_map] at this
    simpa [Function.comp_def] using this
  exact ⟨fun h => h1 (key _ h), fun h => h2 (key _ h)⟩

theorem occurs_drop {canon : Nat → Nat} {w s : Str} {i n : Nat} (h : OccursAt canon w s (n + i)) : OccursAt canon w (s.drop n) i := by
  obtain ⟨h1, h2⟩ := h
  refine ⟨by rw [List.length_drop]; omega, ?_⟩
  rw [List.drop_drop]
  exact h2

theorem occurs_undrop {canon : Nat → Nat} {w s : Str} {i n : Nat} (hn : n ≤ s.length) (h : OccursAt canon w (s.drop n) i) :
    OccursAt canon w s (n + i) := by
  obtain ⟨h1, h2⟩ := h
  rw [List.length_drop] at h1
  refine ⟨by omega, ?_⟩
  rw [List.drop_drop] at h2
  exact h2

theorem fits_occurs {canon : Nat → Nat} {w s : Str} : fits canon s w = true ↔ OccursAt canon w s 0 := by
  constructor
  · intro h
    exact ⟨by have := fits_length h; omega, of_decide_eq_true h⟩
  · intro h
    exact decide_eq_true h.2

/-- every occurrence of a word has code units in bold; without an empty word -/
theorem scan_meets (canon : Nat → Nat) {ws : List Str} (hne : [] ∉ ws) : ∀ (fuel : Nat) (s : Str), s.length < fuel → ∀ w ∈ ws, ∀ i,
    OccursAt canon w s i → ∃ j, i ≤ j ∧ j < i + w.length ∧ ((scan canon ws fuel s).map (·.2))[j]? = some true := by
  intro fuel
  induction fuel with
  | zero => intro s hf; omega
  | succ fuel ih =>
      intro s hf w hw i ho
      have hw0 : 0 < w.length := List.length_pos_iff.mpr (fun h => hne (h ▸ hw))
      unfold scan
      cases hfi : ws.find? (fits canon s) with
      | none =>
          cases s with
          | nil => have := ho.1; rw [List.length_nil] at this; omega
          | cons c r =>
              cases i with
              | zero =>
                  have := List.find?_eq_none.mp hfi w hw
                  exact absurd (fits_occurs.mpr ho) this
              | succ i =>
                  obtain ⟨j, j1, j2, j3⟩ := ih r (by simpa using hf) w hw i (by
                    have := occurs_drop (n := 1) (i := i) (s := c :: r) (w := w) (canon := canon) (by rw [Nat.add_comm]; exact ho)
                    simpa using this)
                  exact ⟨j + 1, by omega, by omega, by simpa using j3⟩
      | some u =>
          have hu := List.mem_of_find?_eq_some hfi
          have hu0 : 0 < u.length := List.length_pos_iff.mpr (fun h => hne (h ▸ hu))
          have hul := fits_length (List.find?_some hfi)
          simp only [if_pos hu0, List.map_append, List.map_map, Function.comp_def]
          by_cases hi : i < u.length
          · refine ⟨i, Nat.le_refl _, by omega, ?_⟩
            rw [List.getElem?_append_left (by simp; omega), List.getElem?_map, List.getElem?_eq_getElem (by simp; omega)]
            rfl
          · obtain ⟨i', rfl⟩ := Nat.exists_eq_add_of_le (Nat.le_of_not_lt hi)
            obtain ⟨j, j1, j2, j3⟩ := ih (s.drop u.length) (by rw [List.length_drop]; omega) w hw i' (occurs_drop ho)
            refine ⟨u.length + j, by omega, by omega, ?_⟩
            rw [List.getElem?_append_right (by simp; omega)]
            simp only [List.length_map, List.length_take]
            rw [show u.length + j - min u.length s.length = j by omega]
            exact j3

/-- what is in bold belongs to an occurrence of a word that is in bold as a whole -/
theorem scan_only (canon : Nat → Nat) (ws : List Str) : ∀ (fuel : Nat) (s : Str), s.length < fuel → ∀ j,
    ((scan canon ws fuel s).map (·.2))[j]? = some true → ∃ w ∈ ws, w ≠ [] ∧ ∃ i, i ≤ j ∧ j < i + w.length ∧ OccursAt canon w s i ∧
      ∀ m, i ≤ m → m < i + w.length → ((scan canon ws fuel s).map (·.2))[m]? = some true := by
  intro fuel
  induction fuel with
  | zero => intro s hf; omega
  | succ fuel ih =>
      intro s hf j
      have hcons : ∀ (c : Nat) (r : Str), r.length < fuel → ∀ j, (((c, false) :: scan canon ws fuel r).map (·.2))[j]? = some true →
          ∃ w ∈ ws, w ≠ [] ∧ ∃ i, i ≤ j ∧ j < i + w.length ∧ OccursAt canon w (c :: r) i ∧
          ∀ m, i ≤ m → m < i + w.length → (((c, false) :: scan canon ws fuel r).map (·.2))[m]? = some true := by
        intro c r hr j hj
        cases j with
        | zero => simp at hj
        | succ j =>
            obtain ⟨w, w1, w2, i, i1, i2, i3, i4⟩ := ih r hr j (by simpa using hj)
            refine ⟨w, w1, w2, i + 1, by omega, by omega, ?_, ?_⟩
            · have := occurs_undrop (n := 1) (i := i) (s := c :: r) (by simp) (by simpa using i3)
              rwa [Nat.add_comm] at this
            · intro m m1 m2
              obtain ⟨m, rfl⟩ : ∃ m', m = m' + 1 := ⟨m - 1, by omega⟩
              simpa using i4 m (by omega) (by omega)
      unfold scan
      cases hfi : ws.find? (fits canon s) with
      | none =>
          cases s with
          | nil => simp
          | cons c r => exact hcons c r (by simpa using hf) j
      | some u =>
          have hu := List.mem_of_find?_eq_some hfi
          have hus := List.find?_some hfi
          have hul := fits_length hus
          by_cases hu0 : 0 < u.length
          · simp only [if_pos hu0, List.map_append, List.map_map, Function.comp_def]
            intro hj
            by_cases hju : j < u.length
            · refine ⟨u, hu, List.length_pos_iff.mp hu0, 0, by omega, by omega, fits_occurs.mp hus, ?_⟩
              intro m _ hm
              rw [List.getElem?_append_left (by simp; omega), List.getElem?_map, List.getElem?_eq_getElem (by simp; omega)]
              rfl
            · rw [List.getElem?_append_right (by simp; omega)] at hj
              simp only [List.length_map, List.length_take] at hj
              obtain ⟨w, w1, w2, i, i1, i2, i3, i4⟩ := ih (s.drop u.length) (by rw [List.length_drop]; omega) _ hj
              refine ⟨w, w1, w2, u.length + i, by omega, by omega, occurs_undrop hul i3, ?_⟩
              intro m m1 m2
              rw [List.getElem?_append_right (by simp; omega)]
              simp only [List.length_map, List.length_take]
              exact i4 _ (by omega) (by omega)
          · have h0 : u.length = 0 := by omega
            simp only [h0, List.take_zero, List.map_nil, List.nil_append]
            cases s with
            | nil => simp
            | cons c r => exact hcons c r (by simpa using hf) j

/-- what a fragment shows is no longer than the fragment, and shorter when it has a `<` -/
theorem shows_length : ∀ (n : Nat) (s : Str) (b : Bool) (out : List (Nat × Bool)), shows b s n = some out → s.length ≤ n →
    out.length + s.countP (· == 60) ≤ s.length := by
  intro n
  induction n with
  | zero =>
      intro s b out h hs
      have : s = [] := List.length_eq_zero_iff.mp (by omega)
      subst this
      simp [shows] at h
      simp [← h]
  | succ n ih =>
      intro s b out h hs
      cases s with
      | nil => simp [shows] at h; simp [← h]
      | cons c s =>
          simp only [List.length_cons] at hs
          rw [shows_cons] at h
          have map : ∀ (x : Nat × Bool) (r : Str), (shows b r n).map (x :: ·) = some out → r.length + 1 ≤ s.length + 1 → r.length ≤ n →
              out.length + r.countP (· == 60) ≤ r.length + 1 := by
            intro x r hr _ hrn
            cases hsh : shows b r n with
            | none => rw [hsh] at hr; simp at hr
            | some o =>
                rw [hsh] at hr
                simp only [Option.map_some, Option.some.injEq] at hr
                have := ih r b o hsh hrn
                rw [← hr]; simp only [List.length_cons]; omega
          split at h
          · rename_i h60
            subst h60
            split at h
            · have := ih _ _ _ h (by simp only [List.length_cons] at hs; omega)
              simp
              omega
            · have := ih _ _ _ h (by simp only [List.length_cons] at hs; omega)
              simp
              omega
            · cases h
          · rename_i h60
            split at h
            · rename_i h38
              subst h38
              split at h
              · have := map _ _ h (by simp) (by simp only [List.length_cons] at hs; omega)
                simp
                omega
              · have := map _ _ h (by simp) (by simp only [List.length_cons] at hs; omega)
                simp
                omega
              · have := map _ _ h (by simp) (by simp only [List.length_cons] at hs; omega)
                simp
                omega
              · have := map _ _ h (by simp) (by simp only [List.length_cons] at hs; omega)
                simp
                omega
              · cases h
            · have := map _ _ h (by omega) (by omega)
              simp [h60]
              omega

/-- text without `<` and `&` shows itself -/
theorem shows_plain : ∀ (s : Str) (b : Bool) (n : Nat), s.length ≤ n → 60 ∉ s → 38 ∉ s → shows b s n = some (s.map (·, b))
  | [], b, n, _, _, _ => by cases n <;> simp [shows]
  | c :: s, b, 0, h, _, _ => by simp at h
  | c :: s, b, n + 1, h, h1, h2 => by
      simp only [List.mem_cons, not_or] at h1 h2
      rw [shows_cons, if_neg (Ne.symm h1.1), if_neg (Ne.symm h2.1), shows_plain s b n (by simpa using h) h1.2 h2.2]
      rfl

/-- a group that is not closed: with no `(` the rest is the `)`, with some there is no rest or an exception -/
theorem alternatives_open : ∀ (t : Str) (fuel n : Nat), 41 ∉ t → t.length + 1 < fuel →
    (40 ∉ t → ∃ e m, alternatives fuel (t ++ [41]) n = .ok (e, [41], m)) ∧
    (40 ∈ t → alternatives fuel (t ++ [41]) n = .error .thrown ∨ ∃ e m, alternatives fuel (t ++ [41]) n = .ok (e, [], m)) := by
  intro t
  induction t with
  | nil =>
      intro fuel n _ hf
      cases fuel with
      | zero => omega
      | succ fuel =>
          refine ⟨fun _ => ⟨.empty, n, ?_⟩, by simp⟩
          rw [List.nil_append, alternatives, if_pos rfl]
  | cons c t ih =>
      intro fuel n h41 hf
      cases fuel with
      | zero => omega
      | succ fuel =>
          simp only [List.mem_cons, not_or, List.length_cons] at h41 hf
          rw [List.cons_append, alternatives, if_neg (Ne.symm h41.1)]
          by_cases h124 : c = 124
          · rw [if_pos h124]
            obtain ⟨i1, i2⟩ := ih fuel n h41.2 (by omega)
            constructor
            · intro h
              simp only [List.mem_cons, not_or] at h
              obtain ⟨e, m, he⟩ := i1 h.2
              exact ⟨_, m, by rw [he]; rfl⟩
            · intro h
              have h' : 40 ∈ t := by
                rcases List.mem_cons.mp h with h | h
                · omega
                · exact h
              rcases i2 h' with he | ⟨e, m, he⟩
              · left; rw [he]; rfl
              · right; exact ⟨_, m, by rw [he]; rfl⟩
          rw [if_neg h124]
          by_cases h40 : c = 40
          · subst h40
            rw [if_pos rfl]
            refine ⟨by simp, fun _ => ?_⟩
            obtain ⟨i1, i2⟩ := ih fuel (n + 1) h41.2 (by omega)
            by_cases ht : 40 ∈ t
            · left
              rcases i2 ht with he | ⟨e, m, he⟩
              · rw [he]; rfl
              · rw [he]; rfl
            · right
              obtain ⟨e, m, he⟩ := i1 ht
              rw [he]
              cases fuel with
              | zero => omega
              | succ fuel => exact ⟨_, _, rfl⟩
          · rw [if_neg h40]
            obtain ⟨i1, i2⟩ := ih fuel n h41.2 (by omega)
            constructor
            · intro h
              simp only [List.mem_cons, not_or] at h
              obtain ⟨e, m, he⟩ := i1 h.2
              exact ⟨_, m, by rw [he]; rfl⟩
            · intro h
              have h' : 40 ∈ t := by
                rcases List.mem_cons.mp h with h | h
                · exact absurd h.symm h40
                · exact h
              rcases i2 h' with he | ⟨e, m, he⟩
              · left; rw [he]; rfl
              · right; exact ⟨_, m, by rw [he]; rfl⟩

theorem compile_open {t : Str} (h1 : 40 ∈ t) (h2 : 41 ∉ t) : compile ([40] ++ t ++ [41]) = .error .thrown := by
  unfold compile
  rw [List.append_assoc, List.singleton_append, List.length_cons]
  have e : alternatives ((t ++ [41]).length + 1 + 1) (40 :: (t ++ [41])) 0 = .error .thrown := by
    rw [alternatives, if_neg (by decide), if_neg (by decide), if_pos rfl]
    rcases (alternatives_open t ((t ++ [41]).length + 1) (0 + 1) h2 (by rw [List.length_append, List.length_singleton]; omega)).2 h1 with
      he | ⟨e, m, he⟩
    · rw [he]; rfl
    · rw [he]; rfl
  rw [e]
  rfl

theorem mem_join {c : Nat} (hc : c ≠ 124) : ∀ ws : List Str, c ∈ join ws ↔ ∃ w ∈ ws, c ∈ w
  | [] => by simp [join]
  | [w] => by simp [join]
  | w :: u :: ws => by
      rw [show join (w :: u :: ws) = w ++ 124 :: join (u :: ws) from rfl, List.mem_append, List.mem_cons, mem_join hc (u :: ws)]
      constructor
      · rintro (h | h | ⟨x, hx, h⟩)
        · exact ⟨w, by simp, h⟩
        · exact absurd h hc
        · exact ⟨x, by simp at hx; simp [hx], h⟩
      · rintro ⟨x, hx, h⟩
        rcases List.mem_cons.mp hx with rfl | hx
        · exact Or.inl h
        · exact Or.inr (Or.inr ⟨x, hx, h⟩)

/-- what is not white space is part of a piece -/
theorem mem_splitLoop {c : Nat} (hc : isSpace c = false) : ∀ (s cur : Str) (sep : Bool), (sep = true → cur = []) → c ∈ cur ++ s →
    ∃ w ∈ splitLoop s cur sep, c ∈ w := by
  intro s
  induction s with
  | nil => intro cur sep _ h; exact ⟨cur, by simp [splitLoop], by simpa using h⟩
  | cons x s ih =>
      intro cur sep hsep h
      unfold splitLoop
      by_cases hx : isSpace x = true
      · rw [if_pos hx]
        have hcx : c ≠ x := by rintro rfl; rw [hc] at hx; cases hx
        have h' : c ∈ cur ∨ c ∈ s := by simpa [hcx] using h
        cases sep with
        | true =>
            rw [if_pos rfl]
            rw [hsep rfl] at h'
            exact ih [] true (fun _ => rfl) (by simpa using h')
        | false =>
            rw [if_neg (by simp)]
            rcases h' with h' | h'
            · exact ⟨cur, by simp, h'⟩
            · obtain ⟨w, w1, w2⟩ := ih [] true (fun _ => rfl) (by simpa using h')
              exact ⟨w, by simp [w1], w2⟩
      · rw [if_neg hx]
        exact ih _ false (by simp) (by simpa using h)

theorem mem_dropWhile {c : Nat} (hc : isSpace c = false) : ∀ s : Str, c ∈ s → c ∈ s.dropWhile isSpace
  | [], h => h
  | x :: s, h => by
      rw [List.dropWhile_cons]
      split
      · rename_i hx
        apply mem_dropWhile hc s
        rcases List.mem_cons.mp h with rfl | h
        · rw [hc] at hx; cases hx
        · exact h
      · exact h

theorem mem_trim {c : Nat} (hc : isSpace c = false) {s : Str} (h : c ∈ s) : c ∈ trim s := by
  unfold trim
  rw [List.mem_reverse]
  apply mem_dropWhile hc
  rw [List.mem_reverse]
  exact mem_dropWhile hc s h

end Page
end AC
