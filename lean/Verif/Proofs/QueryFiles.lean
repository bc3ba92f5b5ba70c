import Verif.Proofs.Tools
/-!
# The files of queries and the filtered collection
-/
namespace AC.Pre
open Spec

theorem join_joined : ∀ ws : List Str, join ws = joined ws
  | [] => rfl
  | [_] => rfl
  | w :: w' :: ws => by
      unfold join joined
      rw [join_joined (w' :: ws)]
      rfl

theorem queryOf_words {line x : Str} {ts : List Str} (h : Words line (x :: ts)) : queryOf line = joined ts := by
  unfold queryOf
  rw [split_of_words h, List.drop_succ_cons, List.drop_zero, join_joined]

/-- the lines of a record are in the file of their number of terms -/
theorem shard_words {line x : Str} {ts : List Str} (h : Words line (x :: ts)) (hne : ts ≠ []) :
    shard (split line).length = min (ts.length - 1) 6 := by
  rw [split_of_words h, List.length_cons]
  have : 0 < ts.length := List.length_pos_iff.mpr hne
  unfold shard
  split
  · omega
  · rw [if_neg (by omega), if_neg (by omega)]
    omega

theorem partition_get {shuffle : Nat → List Str → List Str} {n : Nat} {ls : List Str} (hl : ∀ l ∈ ls, 10 ∉ l ∧ 13 ∉ l) {i : Nat} (hi : i < 7) :
    (partition shuffle n (ls.flatMap (· ++ [10])))[i]? =
      some (((shuffle i ((ls.filter (fun l => shard (split l).length == i)).map queryOf)).take n).flatMap (· ++ [10])) := by
  unfold partition
  rw [List.getElem?_map, List.getElem?_range hi, lines_text hl]
  rfl

theorem partition_length {shuffle : Nat → List Str → List Str} {n : Nat} {text : Str} : (partition shuffle n text).length = 7 := by
  unfold partition
  rw [List.length_map, List.length_range]

/-! ## Filtering -/

theorem rawLinesAux_line : ∀ (w R cur : Str), 10 ∉ w → rawLinesAux (w ++ 10 :: R) cur = (cur ++ w ++ [10]) :: rawLinesAux R []
  | [], R, cur, _ => by simp [rawLinesAux]
  | b :: w, R, cur, h => by
      rw [List.mem_cons] at h
      rw [List.cons_append]
      conv => lhs; unfold rawLinesAux
      rw [if_neg (fun e => h (Or.inl e.symm)), rawLinesAux_line w R _ (fun e => h (Or.inr e))]
      simp

theorem rawLines_text : ∀ ws : List Str, (∀ w ∈ ws, 10 ∉ w) → rawLines (ws.flatMap (· ++ [10])) = ws.map (· ++ [10])
  | [], _ => rfl
  | w :: ws, h => by
      have ih := rawLines_text ws (fun w hw => h w (List.mem_cons_of_mem _ hw))
      unfold rawLines at ih ⊢
      rw [List.flatMap_cons, List.append_assoc, List.cons_append, List.nil_append, rawLinesAux_line w _ _ (h w (by simp)), ih]
      rfl

theorem rstrip_line {w : Str} (h : 10 ∉ w) : rstrip (w ++ [10]) = w := by
  unfold rstrip
  rw [List.reverse_append, List.reverse_singleton, List.singleton_append, List.dropWhile_cons_of_pos (by rfl)]
  have : w.reverse.dropWhile (· == 10) = w.reverse := by
    cases hr : w.reverse with
    | nil => rfl
    | cons b r =>
        rw [List.dropWhile_cons_of_neg]
        have : b ∈ w := by rw [← List.mem_reverse, hr]; simp
        simp only [beq_iff_eq]
        intro e
        exact h (e ▸ this)
  rw [this, List.reverse_reverse]

theorem split2Aux_eq : ∀ (s cur : Str), (∀ b ∈ s, b < 28 ∨ 31 < b) → split2Aux s cur = splitAux s cur
  | [], _, _ => rfl
  | b :: r, cur, h => by
      have hb : isSpace b = isBlank b := by
        have := h b (by simp)
        unfold isSpace isBlank
        have h2 : (28 ≤ b && b ≤ 31) = false := by
          rw [Bool.and_eq_false_iff]
          simp only [decide_eq_false_iff_not]
          omega
        rw [h2, Bool.or_false]
      unfold split2Aux splitAux
      rw [hb, split2Aux_eq r [] (fun b hb => h b (List.mem_cons_of_mem _ hb)), split2Aux_eq r (cur ++ [b]) (fun b hb => h b (List.mem_cons_of_mem _ hb))]

theorem queryOf2_words {line x : Str} {ts : List Str} (h : Words line (x :: ts)) (h10 : 10 ∉ line) (hb : ∀ b ∈ line, b < 28 ∨ 31 < b) :
    queryOf2 (line ++ [10]) = joined ts := by
  unfold queryOf2
  rw [rstrip_line h10, split2Aux_eq _ _ hb]
  have := split_of_words h
  unfold split at this
  rw [this, List.drop_succ_cons, List.drop_zero, join_joined]

theorem toFilter_text (Qs : List (List Str)) (h : ∀ Q ∈ Qs, ∀ q ∈ Q, 10 ∉ q) : toFilter (Qs.map (fun Q => Q.flatMap (· ++ [10]))) = Qs.flatten := by
  unfold toFilter
  rw [List.flatMap_map]
  induction Qs with
  | nil => rfl
  | cons Q Qs ih =>
      rw [List.flatMap_cons, List.flatten_cons, ih (fun Q hQ => h Q (List.mem_cons_of_mem _ hQ)), rawLines_text Q (h Q (by simp)), List.map_map]
      congr 1
      conv => rhs; rw [← List.map_id Q]
      exact List.map_congr_left (fun q hq => rstrip_line (h Q (by simp) q hq))

/-- the filtered file, for lines with the words of a record -/
theorem filterDataset_text {L : List (Str × Str × List Str)}
    (h : ∀ l ∈ L, Words l.1 (l.2.1 :: l.2.2) ∧ 10 ∉ l.1 ∧ ∀ b ∈ l.1, b < 28 ∨ 31 < b) (Qs : List (List Str)) (hq : ∀ Q ∈ Qs, ∀ q ∈ Q, 10 ∉ q) :
    filterDataset (Qs.map (fun Q => Q.flatMap (· ++ [10]))) (L.flatMap (fun l => l.1 ++ [10])) =
      (L.filter (fun l => !Qs.flatten.contains (joined l.2.2))).flatMap (fun l => l.1 ++ [10]) := by
  unfold filterDataset
  have hl := rawLines_text (L.map (·.1)) (by
    intro w hw
    obtain ⟨l, hl, rfl⟩ := List.mem_map.mp hw
    exact (h l hl).2.1)
  rw [List.flatMap_map, List.map_map] at hl
  rw [toFilter_text Qs hq, hl, List.filter_map, ← List.flatMap_def]
  congr 1
  refine List.filter_congr (fun l hl => ?_)
  dsimp only [Function.comp]
  rw [queryOf2_words (h l hl).1 (h l hl).2.1 (h l hl).2.2]

end AC.Pre

namespace AC
open Spec

theorem Spec.Words.mem {s : Str} {ws : List Str} (h : Words s ws) : ∀ w ∈ ws, ∀ b ∈ w, b ∈ s := by
  induction h with
  | none _ => simp
  | last _ _ _ =>
      intro w hw b hb
      rw [List.mem_singleton] at hw
      subst hw
      rw [List.mem_append]; exact Or.inr hb
  | next _ _ _ _ _ ih =>
      intro w hw b hb
      rw [List.mem_append, List.mem_append, List.mem_cons]
      rcases List.mem_cons.mp hw with rfl | hw
      · exact Or.inl (Or.inr hb)
      · exact Or.inr (Or.inr (ih w hw b hb))

theorem mem_joined : ∀ {ws : List Str} {b : Nat}, b ∈ joined ws → b = 32 ∨ ∃ w ∈ ws, b ∈ w
  | [], b, h => by simp [joined] at h
  | [w], b, h => Or.inr ⟨w, by simp, h⟩
  | w :: w' :: ws, b, h => by
      unfold joined at h
      rw [List.mem_append, List.mem_cons] at h
      rcases h with h | h | h
      · exact Or.inr ⟨w, by simp, h⟩
      · exact Or.inl h
      · rcases mem_joined h with h | ⟨v, hv, h⟩
        · exact Or.inl h
        · exact Or.inr ⟨v, List.mem_cons_of_mem _ hv, h⟩

theorem Spec.Words.joined_newline {line x : Str} {ts : List Str} (h : Words line (x :: ts)) {c : Nat} (h10 : c ∉ line) (h32 : c ≠ 32) : c ∉ joined ts := by
  intro hm
  rcases mem_joined hm with h' | ⟨w, hw, hb⟩
  · exact h32 h'
  · exact h10 (h.mem w (List.mem_cons_of_mem _ hw) _ hb)

end AC
