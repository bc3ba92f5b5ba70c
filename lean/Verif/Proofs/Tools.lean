import Verif.Model.Tools
import Verif.Spec.Tools
import Verif.Proofs.Float32
import Verif.Proofs.Parse
import Verif.Proofs.Text
/-!
# Queries of the benchmarks
-/
namespace AC
open Spec

theorem pieces_append_space : ∀ (s t : Str), pieces (s ++ 32 :: t) = pieces s ++ pieces t
  | [], t => by rw [List.nil_append, pieces_space]; simp [pieces]
  | c :: s, t => by
      rw [List.cons_append]
      have ih := pieces_append_space s t
      by_cases hc : c = space
      · rw [pieces, if_pos hc, pieces, if_pos hc, ih, List.cons_append]
      · rw [pieces, if_neg hc, pieces, if_neg hc, ih]
        cases h : pieces s with
        | nil => exact absurd h (pieces_ne_nil s)
        | cons p ps => rfl

theorem pieces_word : ∀ {t : Str}, 32 ∉ t → pieces t = [t]
  | [], _ => rfl
  | c :: t, h => by
      rw [List.mem_cons, not_or] at h
      unfold pieces
      rw [if_neg (fun e => h.1 e.symm), pieces_word h.2]

theorem completeTerms_atSpace {s t : Str} (h : 32 ∉ t) : completeTerms (s ++ 32 :: t) = (pieces s).filter (fun p => !p.isEmpty) := by
  unfold completeTerms
  rw [pieces_append_space, pieces_word h, List.dropLast_concat]

theorem lastTerm_atSpace {s t : Str} (h : 32 ∉ t) : lastTerm (s ++ 32 :: t) = t := by
  unfold lastTerm
  rw [pieces_append_space, pieces_word h]
  simp

theorem completeTerms_word {t : Str} (h : 32 ∉ t) : completeTerms t = [] := by
  unfold completeTerms; rw [pieces_word h]; rfl

theorem lastTerm_word {t : Str} (h : 32 ∉ t) : lastTerm t = t := by
  unfold lastTerm; rw [pieces_word h]; rfl

/-- a string has no space, or a last one -/
theorem space_cases (q : Str) : 32 ∉ q ∨ ∃ s t, q = s ++ 32 :: t ∧ 32 ∉ t := by
  induction q with
  | nil => left; simp
  | cons c q ih =>
      rcases ih with h | ⟨s, t, rfl, ht⟩
      · by_cases hc : c = 32
        · right; exact ⟨[], q, by rw [hc]; rfl, h⟩
        · left
          rw [List.mem_cons, not_or]
          exact ⟨fun e => hc e.symm, h⟩
      · right; exact ⟨c :: s, t, rfl, ht⟩

namespace Bench

theorem lastSpace_word : ∀ {q : Str} {n : Nat}, n < q.length → (∀ i, 0 < i → i ≤ n → q[i]? ≠ some 32) → lastSpace q n = .ok 0
  | q, 0, _, _ => rfl
  | q, n + 1, hn, h => by
      unfold lastSpace
      rw [rd_ok hn, M.ok_bind]
      have := h (n + 1) (by omega) (Nat.le_refl _)
      rw [List.getElem?_eq_getElem hn] at this
      rw [if_pos (by simpa using this)]
      exact lastSpace_word (by omega) (fun i h1 h2 => h i h1 (by omega))

theorem lastSpace_space {s t : Str} (ht : 32 ∉ t) : ∀ n, n ≤ t.length → lastSpace (s ++ 32 :: t) (s.length + n) = .ok s.length
  | 0, _ => by
      cases s with
      | nil => rfl
      | cons c s =>
          rw [List.length_cons, Nat.add_zero]
          unfold lastSpace
          rw [rd_of_getElem? (a := 32) (by rw [List.getElem?_append_right (by simp)]; simp), M.ok_bind]
          rfl
  | n + 1, hn => by
      rw [← Nat.add_assoc]
      unfold lastSpace
      rw [rd_of_getElem? (a := t[n]) (by
        rw [List.getElem?_append_right (by omega)]
        have : s.length + n + 1 - s.length = n + 1 := by omega
        rw [this, List.getElem?_cons_succ, List.getElem?_eq_getElem]), M.ok_bind]
      have : t[n] ≠ 32 := fun e => ht (e ▸ List.getElem_mem _)
      rw [if_pos (by simpa using this)]
      exact lastSpace_space ht n (by omega)

/-- the sum of floats that gives the end, for short strings -/
theorem stop_eq {size c : Nat} (h : size + c + 2 < 2 ^ 24) : F32.round (F32.round (F32.round (F32.ofNat size + c) + 1) + 1) = size + c + 2 := by
  unfold F32.ofNat
  rw [F32.round_small (v := size) (by omega), F32.round_small (v := size + c) (by omega), F32.round_small (v := size + c + 1) (by omega),
    F32.round_small (by omega)]

theorem kept_take {p : Nat} {t : Str} {k m : Nat} (hp : p ≤ F32.one) (hk : t.length ≤ k) (hk' : k ≤ t.length + 1)
    (hm : m = F32.ceil (F32.mul k p) + (t.length + 2 - k)) (hl : k < 2 ^ 24) : Kept p F32.one t (t.take m) := by
  have hc : k * p ≤ k * F32.one := Nat.mul_le_mul_left _ hp
  have h2 := (F32.ceil_mul hl hc).2
  have htk : t.length * p ≤ k * p := Nat.mul_le_mul_right _ hk
  have ho := F32.one_pos
  refine ⟨List.take_prefix _ _, ?_, ?_, ?_⟩
  · intro hne h
    have hlen : 0 < t.length := List.length_pos_iff.mpr hne
    have := congrArg List.length h
    rw [List.length_take, List.length_nil] at this
    omega
  · rw [List.length_take]
    by_cases hmt : m ≤ t.length
    · rw [Nat.min_eq_left hmt]
      have h3 : (F32.ceil (F32.mul k p) + 1) * F32.one ≤ m * F32.one := Nat.mul_le_mul_right _ (by omega)
      rw [Nat.add_mul, Nat.one_mul] at h3
      rw [Nat.add_mul, Nat.one_mul, Nat.mul_assoc] at h2
      omega
    · rw [Nat.min_eq_right (by omega)]
      exact Nat.mul_le_mul_left _ hp
  · intro i hi
    rw [List.length_take]
    by_cases hik : t.length ≤ i
    · omega
    · rcases (show k = t.length ∨ k = t.length + 1 by omega) with e | e
      · subst e
        have := (F32.ceil_mul (i := i) (by omega) hi).1
        omega
      · have h4 : k * p ≤ (i + 1) * F32.one := by
          rw [e, Nat.add_mul, Nat.one_mul, Nat.add_mul, Nat.one_mul]; omega
        have := (F32.ceil_mul (i := i + 1) (by omega) h4).1
        omega

/-- the query made of a line -/
theorem cut_spec {p : Nat} {line : Str} (hp : p ≤ F32.one) (hne : line ≠ []) (hl : line.length < 2 ^ 24 - 4) :
    ∃ q, cut p line = .ok q ∧ Shortened p F32.one line q := by
  have hlen : 0 < line.length := List.length_pos_iff.mpr hne
  unfold cut
  rw [if_neg (by simpa using hne)]
  rcases space_cases line with h | ⟨s, t, rfl, ht⟩
  · rw [lastSpace_word (by omega) (fun i _ _ e => h (List.mem_of_getElem? e)), M.ok_bind]
    dsimp only
    rw [Nat.sub_zero]
    unfold F32.ofNat
    rw [F32.round_small (v := line.length) (by omega)]
    have hc := (F32.ceil_mul (i := line.length) (by omega) (Nat.mul_le_mul_left line.length hp)).1
    have := stop_eq (size := 0) (c := F32.ceil (F32.mul line.length p)) (by omega)
    unfold F32.ofNat at this
    rw [this]
    have hw : 32 ∉ line.take (0 + F32.ceil (F32.mul line.length p) + 2) := fun e => h (List.mem_of_mem_take e)
    refine ⟨_, rfl, ⟨[], ?_, ?_⟩, ?_, ?_⟩
    · rw [lastTerm_word h, List.nil_append]
    · rw [lastTerm_word hw, List.nil_append]
    · rw [completeTerms_word h, completeTerms_word hw]
    · rw [lastTerm_word h, lastTerm_word hw]
      exact kept_take hp (Nat.le_refl _) (by omega) (by omega) (by omega)
  · have hlen : (s ++ 32 :: t).length = s.length + t.length + 1 := by simp; omega
    rw [show (s ++ 32 :: t).length - 1 = s.length + t.length by omega, lastSpace_space ht t.length (Nat.le_refl _), M.ok_bind]
    dsimp only
    rw [show (s ++ 32 :: t).length - s.length = t.length + 1 by omega]
    have e1 : F32.ofNat (t.length + 1) = t.length + 1 := F32.round_small (by omega)
    rw [e1]
    have hc := (F32.ceil_mul (i := t.length + 1) (by omega) (Nat.mul_le_mul_left (t.length + 1) hp)).1
    rw [stop_eq (by omega)]
    have e : (s ++ 32 :: t).take (s.length + F32.ceil (F32.mul (t.length + 1) p) + 2) = s ++ 32 :: t.take (F32.ceil (F32.mul (t.length + 1) p) + 1) := by
      rw [Nat.add_assoc, List.take_length_add_append, List.take_succ_cons]
    rw [e]
    have hw : 32 ∉ t.take (F32.ceil (F32.mul (t.length + 1) p) + 1) := fun e => ht (List.mem_of_mem_take e)
    refine ⟨_, rfl, ⟨s ++ [32], ?_, ?_⟩, ?_, ?_⟩
    · rw [lastTerm_atSpace ht, List.append_assoc, List.singleton_append]
    · rw [lastTerm_atSpace hw, List.append_assoc, List.singleton_append]
    · rw [completeTerms_atSpace ht, completeTerms_atSpace hw]
    · rw [lastTerm_atSpace ht, lastTerm_atSpace hw]
      exact kept_take (k := t.length + 1) hp (by omega) (by omega) (by omega) (by omega)

end Bench

theorem takeWhile_line {l s : Str} (h : 10 ∉ l) : (l ++ 10 :: s).takeWhile (· != 10) = l ∧ (l ++ 10 :: s).dropWhile (· != 10) = 10 :: s := by
  have hp : ∀ b ∈ l, (b != 10) = true := fun b hb => by
    simp only [bne_iff_ne, ne_eq]
    intro e
    exact h (e ▸ hb)
  constructor
  · rw [List.takeWhile_append_of_pos hp]
    simp
  · rw [List.dropWhile_append_of_pos hp]
    simp

theorem takeWhile_last {l : Str} (h : 10 ∉ l) : l.takeWhile (· != 10) = l ∧ l.dropWhile (· != 10) = [] := by
  have hp : ∀ b ∈ l, (b != 10) = true := fun b hb => by
    simp only [bne_iff_ne, ne_eq]
    intro e
    exact h (e ▸ hb)
  constructor
  · have := List.takeWhile_append_of_pos (l₂ := []) hp
    simpa using this
  · have := List.dropWhile_append_of_pos (l₂ := []) hp
    simpa using this

theorem getLine_next {l s : Str} (h : 10 ∉ l) : (Stream.ofText (l ++ 10 :: s)).getLine = some (l, .ofText s) := by
  unfold Stream.getLine Stream.ofText
  dsimp only
  rw [if_neg (by simp), (takeWhile_line h).1, (takeWhile_line h).2]

theorem getLine_last {l : Str} (hne : l ≠ []) (h : 10 ∉ l) : (Stream.ofText l).getLine = some (l, ⟨[], true, false⟩) := by
  unfold Stream.getLine Stream.ofText
  dsimp only
  rw [if_neg (by simpa using hne), (takeWhile_last h).1, (takeWhile_last h).2]

namespace Bench

theorem loadQueries_end (p n : Nat) : loadQueries p n ⟨[], true, false⟩ = .ok [] := by
  cases n with
  | zero => rfl
  | succ n => rfl

/-- the queries are made of the first lines, one of each -/
theorem loadQueries_eq {p : Nat} {text : Str} {ls : List Str} (h : Lines text ls) : ∀ n, loadQueries p n (.ofText text) = (ls.take n).mapM (cut p) := by
  induction h with
  | none => intro n; cases n <;> rfl
  | @last l h1 h2 =>
      intro n
      cases n with
      | zero => rfl
      | succ n =>
          unfold loadQueries
          rw [getLine_last h1 h2]
          dsimp only
          simp only [loadQueries_end]
          rw [List.take_succ_cons, List.take_nil, List.mapM_cons, List.mapM_nil]
          rfl
  | @next l s ls h1 _ ih =>
      intro n
      cases n with
      | zero => rfl
      | succ n =>
          unfold loadQueries
          rw [getLine_next h1]
          dsimp only
          rw [List.take_succ_cons, List.mapM_cons]
          simp only [ih n]
          rfl

end Bench
end AC
