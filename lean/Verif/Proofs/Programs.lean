import Verif.Model.Programs
import Verif.Proofs.QueryFiles
/-!
# Numbers of terms, and the binary format
-/
namespace AC
open Spec

/-! ## src/map_queries.cpp -/

/-- the number printed for a term -/
def numberOf (L : List Str) (t : Str) : Nat := if t ∈ L then L.idxOf t else INVALID_TERM - 1

theorem mapLoop_spec {L : List Str} {n : Nat} {d : FC} (R : Locates d L n) :
    ∀ (fuel : Nat) (r : Str) (c : Ids) (buf : Str), IsText r → buf.length = n → r.length < fuel →
      ∃ buf', mapLoop d fuel r c buf = .ok (c ++ (if r = [] then [] else (queryTerms r).map (numberOf L)), buf') ∧ buf'.length = n := by
  intro fuel
  induction fuel with
  | zero => intro r c buf _ _ h; omega
  | succ fuel ih =>
      intro r c buf hr hb hf
      unfold mapLoop
      by_cases hre : r = []
      · subst hre
        exact ⟨buf, by simp, hb⟩
      · rw [if_neg (by simpa using hre), if_neg hre]
        obtain ⟨s1, s2, n1, n2⟩ := nextToken_spec r
        rcases hn : nextToken r with ⟨tok, rest⟩
        rw [hn] at s1 s2 n1 n2
        dsimp only at s1 s2 n1 n2 ⊢
        have htok : IsText tok := fun c hc => hr c (s1 hc)
        have hrest : IsText rest := fun c hc => hr c (s2 hc)
        obtain ⟨buf1, l1, l2⟩ := R tok htok buf hb
        rw [l1, M.ok_bind]
        dsimp only
        have hid : (if tok ∈ L then rankOf L tok else INVALID_TERM) - 1 = numberOf L tok := by
          unfold numberOf rankOf
          split <;> rfl
        rw [hid]
        by_cases hrest0 : rest = []
        · subst hrest0
          obtain ⟨buf', p1, p2⟩ := ih [] (c ++ [numberOf L tok]) buf1 hrest (by omega) (by
            have : 0 < r.length := List.length_pos_iff.mpr hre
            simp only [List.length_nil]; omega)
          refine ⟨buf', ?_, p2⟩
          rw [p1, if_pos rfl, List.append_nil]
          obtain ⟨e1, e2⟩ := n1 rfl
          unfold queryTerms
          rw [e1, e2]
          rfl
        · obtain ⟨e1, e2, e3⟩ := n2 hrest0
          obtain ⟨buf', p1, p2⟩ := ih rest (c ++ [numberOf L tok]) buf1 hrest (by omega) (by omega)
          refine ⟨buf', ?_, p2⟩
          rw [p1, if_neg hrest0]
          unfold queryTerms
          rw [e1, e2]
          simp

theorem numbered {L : List Str} (v : ValidTerms L) (q : Str) : Numbered L q ((queryTerms q).map (numberOf L)) := by
  refine ⟨List.length_map .., ?_⟩
  intro j t n ht hn
  rw [List.getElem?_map, ht] at hn
  simp only [Option.map_some, Option.some.injEq] at hn
  subst hn
  unfold numberOf
  by_cases h : t ∈ L
  · left
    rw [if_pos h, List.getElem?_eq_getElem (List.idxOf_lt_length_iff.mpr h)]
    simp
  · right
    rw [if_neg h]
    have := v.count
    exact ⟨h, by unfold INVALID_TERM; omega⟩

theorem isWord_dec_blank (n : Nat) : ∀ b ∈ Pre.dec n, Pre.isBlank b = false := (Pre.dec_isWord n).2

/-- the printed line without its newline -/
def tabLine : Ids → Str
  | [] => []
  | x :: xs => Pre.dec x ++ xs.flatMap (fun y => 9 :: Pre.dec y)

theorem tabLine_words : ∀ {ns : List Nat}, ns ≠ [] → Words (tabLine ns) (ns.map Pre.dec)
  | [], h => absurd rfl h
  | [x], _ => by
      have : Words ([] ++ Pre.dec x) [Pre.dec x] := .last (by simp) (Pre.dec_ne x) (isWord_dec_blank x)
      simpa [tabLine] using this
  | x :: y :: ns, _ => by
      have ih := tabLine_words (ns := y :: ns) (by simp)
      have := Words.next (gap := []) (w := Pre.dec x) (b := 9) (by simp) (Pre.dec_ne x) (isWord_dec_blank x) (by decide) ih
      simpa [tabLine] using this

theorem digit_ne_newline {b : Nat} (h : isDigit b = true) : b ≠ 10 := by
  rintro rfl; revert h; decide

theorem tabLine_newline (ns : List Nat) : 10 ∉ tabLine ns := by
  have hd : ∀ n, 10 ∉ Pre.dec n := fun n hm => digit_ne_newline (List.all_eq_true.mp (Pre.dec_digits n) 10 hm) rfl
  cases ns with
  | nil => simp [tabLine]
  | cons x xs =>
      unfold tabLine
      rw [List.mem_append, not_or]
      refine ⟨hd x, ?_⟩
      rw [List.mem_flatMap]
      rintro ⟨y, _, hy⟩
      rcases List.mem_cons.mp hy with h | h
      · exact absurd h (by decide)
      · exact hd y h

theorem tabbed_eq {ns : List Nat} (h : ns ≠ []) : tabbed ns = .ok (tabLine ns ++ [10]) := by
  cases ns with
  | nil => exact absurd rfl h
  | cons x xs => rfl

theorem queryTerms_ne (q : Str) : queryTerms q ≠ [] := by unfold queryTerms; simp

/-- what the program prints for the lines -/
theorem mapQueries_spec {L : List Str} {m : Nat} {d : FC} (R : Locates d L m) {text : Str} {ls : List Str} (h : Lines text ls) :
    ∀ (n : Nat) (buf : Str), buf.length = m → (∀ l ∈ ls.take n, l ≠ [] ∧ IsText l) →
      mapQueries d n (.ofText text) buf = .ok ((ls.take n).flatMap (fun l => tabLine ((queryTerms l).map (numberOf L)) ++ [10])) := by
  have one : ∀ (l buf : Str), l ≠ [] → IsText l → buf.length = m →
      ∃ buf', mapLoop d (l.length + 1) l [] buf = .ok ((queryTerms l).map (numberOf L), buf') ∧ buf'.length = m := by
    intro l buf h1 h2 hb
    obtain ⟨buf', e1, e2⟩ := mapLoop_spec R (l.length + 1) l [] buf h2 hb (by omega)
    rw [if_neg h1, List.nil_append] at e1
    exact ⟨buf', e1, e2⟩
  induction h with
  | none => intro n buf _ _; cases n <;> rfl
  | @last l h1 h2 =>
      intro n buf hb hl
      cases n with
      | zero => rfl
      | succ n =>
          unfold mapQueries
          rw [getLine_last h1 h2]
          dsimp only
          obtain ⟨buf', e1, _⟩ := one l buf h1 (hl l (by simp)).2 hb
          rw [e1, M.ok_bind]
          dsimp only
          rw [tabbed_eq (by simpa using queryTerms_ne l), M.ok_bind]
          have : mapQueries d n ⟨[], true, false⟩ buf' = .ok [] := by cases n <;> rfl
          rw [this, M.ok_bind]
          simp
  | @next l s ls h1 _ ih =>
      intro n buf hb hl
      cases n with
      | zero => rfl
      | succ n =>
          unfold mapQueries
          rw [getLine_next h1]
          dsimp only
          obtain ⟨g1, g2⟩ := hl l (by simp)
          obtain ⟨buf', e1, e2⟩ := one l buf g1 g2 hb
          rw [e1, M.ok_bind]
          dsimp only
          rw [tabbed_eq (by simpa using queryTerms_ne l), M.ok_bind, ih n buf' e2 (fun l hm => hl l (by rw [List.take_succ_cons]; exact List.mem_cons_of_mem _ hm)),
            M.ok_bind, List.take_succ_cons, List.flatMap_cons]

theorem Lines.of_flatMap : ∀ {os : List Str}, (∀ o ∈ os, 10 ∉ o) → Lines (os.flatMap (· ++ [10])) os
  | [], _ => .none
  | o :: os, h => by
      rw [List.flatMap_cons, List.append_assoc, List.singleton_append]
      exact .next (h o (by simp)) (Lines.of_flatMap (fun o ho => h o (List.mem_cons_of_mem _ ho)))

/-! ## src/output_ds2i_format.cpp -/

theorem words32_u32le {n : Nat} (h : n < 2 ^ 32) (r : Str) : words32 (u32le n ++ r) = (words32 r).map (n :: ·) := by
  unfold u32le
  simp only [List.cons_append, List.nil_append, words32]
  have : n % 256 + 256 * (n / 256 % 256) + 65536 * (n / 65536 % 256) + 16777216 * (n / 16777216 % 256) = n := by omega
  rw [this]

theorem words32_list : ∀ {l : List Nat}, (∀ x ∈ l, x < 2 ^ 32) → ∀ r : Str, words32 (l.flatMap u32le ++ r) = (words32 r).map (l ++ ·)
  | [], _, r => by simp
  | x :: l, h, r => by
      rw [List.flatMap_cons, List.append_assoc, words32_u32le (h x (by simp)), words32_list (fun x hx => h x (List.mem_cons_of_mem _ hx)), Option.map_map]
      rfl

theorem words32_lists : ∀ {ls : List (List Nat)}, (∀ l ∈ ls, l.length < 2 ^ 32 ∧ ∀ x ∈ l, x < 2 ^ 32) →
    ∃ ws, words32 (ls.flatMap ds2iList) = some ws ∧ Lists ws ls
  | [], _ => ⟨[], rfl, .none⟩
  | l :: ls, h => by
      obtain ⟨ws, e, hw⟩ := words32_lists (ls := ls) (fun l hl => h l (List.mem_cons_of_mem _ hl))
      obtain ⟨h1, h2⟩ := h l (by simp)
      refine ⟨l.length :: (l ++ ws), ?_, .next hw⟩
      rw [List.flatMap_cons]
      unfold ds2iList at e ⊢
      rw [List.append_assoc, words32_u32le h1, words32_list h2, e]
      rfl

/-- the file determines the lists -/
theorem Spec.Lists.unique {ws : List Nat} {a b : List (List Nat)} (ha : Lists ws a) (hb : Lists ws b) : a = b := by
  induction ha generalizing b with
  | none => cases hb; rfl
  | @next l ws ls _ ih =>
      generalize hv : l.length :: (l ++ ws) = v at hb
      cases hb with
      | none => simp at hv
      | @next l' ws' ls' h' =>
          injection hv with e1 e2
          obtain ⟨e3, e4⟩ := List.append_inj e2 e1
          subst e3 e4
          rw [ih h']

/-! ## benchmark/effectiveness.cpp -/

theorem setDifference_spec : ∀ (fuel : Nat) (b a : List Nat), b.Pairwise (· < ·) → a.Pairwise (· < ·) → b.length + a.length < fuel →
    setDifference fuel b a = b.filter (fun x => decide (x ∉ a))
  | 0, _, _, _, _, h => by omega
  | _ + 1, [], _, _, _, _ => by simp [setDifference]
  | _ + 1, x :: b, [], _, _, _ => by
      unfold setDifference
      symm
      rw [List.filter_eq_self]
      simp
  | fuel + 1, x :: b, y :: a, hb, ha, h => by
      rw [List.pairwise_cons] at hb ha
      simp only [List.length_cons] at h
      unfold setDifference
      split
      · rename_i hxy
        rw [setDifference_spec fuel b (y :: a) hb.2 (List.pairwise_cons.mpr ha) (by simp only [List.length_cons]; omega), List.filter_cons_of_pos]
        simp only [List.mem_cons, decide_eq_true_eq, not_or]
        exact ⟨by omega, fun hm => by have := ha.1 x hm; omega⟩
      · split
        · rename_i h1 h2
          rw [setDifference_spec fuel (x :: b) a (List.pairwise_cons.mpr hb) ha.2 (by simp only [List.length_cons]; omega)]
          refine List.filter_congr (fun z hz => ?_)
          have : y ≠ z := by
            rcases List.mem_cons.mp hz with rfl | hz
            · omega
            · have := hb.1 z hz; omega
          simp [Ne.symm this]
        · rename_i h1 h2
          have : x = y := by omega
          subst this
          rw [setDifference_spec fuel b a hb.2 ha.2 (by omega), List.filter_cons_of_neg (by simp)]
          refine List.filter_congr (fun z hz => ?_)
          have : z ≠ x := by have := hb.1 z hz; omega
          simp [this]

end AC
