import Verif.Model.Tests
import Verif.Proofs.FcDictionary
/-!
# The functions shared by the tests
-/
namespace AC.Tests
open AC

theorem bisect_spec {α : Type} {before : α → Bool} {l : List α} {k : Nat} (hk : k ≤ l.length)
    (hp : ∀ i (hi : i < l.length), before l[i] = decide (i < k)) :
    ∀ (fuel first n : Nat), first ≤ k → k ≤ first + n → first + n ≤ l.length → n < fuel → bisect before l fuel first n = .ok k
  | 0, _, _, _, _, _, h => absurd h (Nat.not_lt_zero _)
  | fuel + 1, first, n, h1, h2, h3, h4 => by
      unfold bisect
      split
      · rw [show first = k by omega]
      · rename_i hn
        rw [rd_ok (by omega : first + n / 2 < l.length), M.ok_bind, hp _ (by omega)]
        by_cases hc : first + n / 2 < k
        · rw [if_pos (by simpa using hc)]
          exact bisect_spec hk hp fuel _ _ (by omega) (by omega) (by omega) (by omega)
        · rw [if_neg (by simpa using hc)]
          exact bisect_spec hk hp fuel _ _ (by omega) (by omega) (by omega) (by omega)

theorem partitionPoint_spec {α : Type} {before : α → Bool} {l : List α} {k : Nat} (hk : k ≤ l.length)
    (hp : ∀ i (hi : i < l.length), before l[i] = decide (i < k)) : partitionPoint before l = .ok k :=
  bisect_spec hk hp _ 0 _ (by omega) (by omega) (by omega) (by omega)

/-- a point where a property that only holds at the beginning ends -/
theorem exists_point {α : Type} {P : α → Prop} : ∀ {l : List α}, (∀ i j (hi : i < l.length) (hj : j < l.length), i < j → P l[j] → P l[i]) →
    ∃ k, k ≤ l.length ∧ ∀ i (hi : i < l.length), P l[i] ↔ i < k
  | [], _ => ⟨0, by simp, fun i hi => by simp at hi⟩
  | a :: l, h => by
      by_cases ha : P a
      · obtain ⟨k, k1, k2⟩ := exists_point (P := P) (l := l) (fun i j hi hj hij hp => by
          have := h (i + 1) (j + 1) (by simpa using hi) (by simpa using hj) (by omega)
          simpa using this (by simpa using hp))
        refine ⟨k + 1, by simpa using k1, ?_⟩
        intro i hi
        cases i with
        | zero => simpa using ha
        | succ i =>
            simp only [List.getElem_cons_succ]
            rw [k2 i (by simpa using hi)]; omega
      · refine ⟨0, by simp, ?_⟩
        intro i hi
        constructor
        · intro hp
          exfalso
          cases i with
          | zero => exact ha (by simpa using hp)
          | succ i => exact ha (h 0 (i + 1) (by simp) hi (by omega) hp)
        · intro hc; omega

theorem strcmp_neg : ∀ {l r : Str}, IsText l → IsText r → (strcmp l r < 0 ↔ l < r)
  | [], [], _, _ => by simp [strcmp, strncmp]
  | [], b :: bs, _, hr => by
      have hb := (hr b (by simp)).1
      simp [strcmp, strncmp, hb]
  | a :: as, [], hl, _ => by
      have ha := (hl a (by simp)).1
      simp [strcmp, strncmp, ha]
  | a :: as, b :: bs, hl, hr => by
      have hl' : IsText as := fun c h => hl c (List.mem_cons_of_mem _ h)
      have hr' : IsText bs := fun c h => hr c (List.mem_cons_of_mem _ h)
      have ha : 0 < a := (hl a (by simp)).1
      have ih := strcmp_neg hl' hr'
      have hstep : strcmp (a :: as) (b :: bs) = if a < b then -1 else if b < a then 1 else strcmp as bs := by
        simp only [strcmp, List.length_cons, Nat.add_min_add_right, List.cons_append]
        rw [strncmp]
        simp only [Nat.ne_of_gt ha, if_false]
      rw [hstep, List.cons_lt_cons_iff]
      by_cases h1 : a < b
      · simp [h1]
      · by_cases h2 : b < a
        · have : a ≠ b := by omega
          simp [h1, h2, this]
        · have : a = b := by omega
          subst this
          simpa using ih

theorem strncmp_neg : ∀ {l r : Str}, IsText l → IsText r → l.length ≤ r.length →
    (strncmp l.length l r < 0 ↔ (l < r ∧ ¬ l <+: r)) ∧ (strncmp l.length l r ≤ 0 ↔ (l < r ∨ l <+: r))
  | [], r, _, _, _ => by simp [strncmp]
  | a :: as, [], _, _, h => by simp at h
  | a :: as, b :: bs, hl, hr, h => by
      have hl' : IsText as := fun c h => hl c (List.mem_cons_of_mem _ h)
      have hr' : IsText bs := fun c h => hr c (List.mem_cons_of_mem _ h)
      have ha : 0 < a := (hl a (by simp)).1
      have ih := strncmp_neg hl' hr' (by simpa using h)
      rw [List.length_cons, strncmp, List.cons_lt_cons_iff, List.cons_prefix_cons]
      simp only [Nat.ne_of_gt ha, if_false]
      by_cases h1 : a < b
      · have : a ≠ b := by omega
        simp [h1, this]
      · by_cases h2 : b < a
        · have : a ≠ b := by omega
          simp [h1, h2, this]
        · have : a = b := by omega
          subst this
          simpa using ih

theorem prefix_lt {l r : Str} (h : l <+: r) (hl : l.length < r.length) : l < r := by
  obtain ⟨t, rfl⟩ := h
  induction l with
  | nil => cases t with
    | nil => simp at hl
    | cons b bs => simp
  | cons a as ih =>
      rw [List.cons_append, List.cons_lt_cons_iff]
      exact .inr ⟨rfl, ih (by simpa using hl)⟩

theorem compL_iff {l r : Str} (hl : IsText l) (hr : IsText r) : compL l r = decide (l < r) := by
  unfold compL
  split
  · rename_i h
    rw [decide_eq_decide, (strncmp_neg hl hr (by omega)).2]
    exact ⟨fun h' => h'.elim id (fun h' => prefix_lt h' h), Or.inl⟩
  · rw [decide_eq_decide, strcmp_neg hl hr]

theorem compR_iff {l r : Str} (hl : IsText l) (hr : IsText r) : compR l r = true ↔ FcDict.Gt l r := by
  unfold compR
  split
  · rename_i h
    rw [decide_eq_true_iff, (strncmp_neg hl hr (by omega)).1]
    exact Iff.rfl
  · rename_i h
    rw [decide_eq_true_iff, strcmp_neg hl hr]
    refine ⟨fun h' => ⟨h', fun hp => ?_⟩, fun h' => h'.1⟩
    have := hp.length_le
    have e := hp.eq_of_length (by omega)
    subst e
    exact absurd h' (by simp)

/-- `testing::locate` finds the terms -/
theorem locate_spec {L : List Str} (hs : StrictSorted L) {i : Nat} (hi : i < L.length) : locate L L[i] = .ok (i + 1) := by
  unfold locate
  rw [partitionPoint_spec (k := i) (by omega)]
  · rfl
  · intro j hj
    rw [decide_eq_decide]
    constructor
    · intro h
      apply Nat.lt_of_not_le
      intro hij
      rcases Nat.lt_or_eq_of_le hij with hij | rfl
      · exact absurd h (List.not_lt.mpr (List.le_of_lt (List.pairwise_iff_getElem.mp hs i j hi hj hij)))
      · exact absurd h (by simp)
    · intro h
      exact List.pairwise_iff_getElem.mp hs j i hj hi h

/-- `testing::locate_prefix`: the half-open range of the strings that start with `p` -/
theorem locatePrefix_spec {L : List Str} (hs : StrictSorted L) (ht : ∀ s ∈ L, IsText s) {p : Str} (hp : IsText p) :
    ∃ r, locatePrefix L p = .ok r ∧ r.b ≤ r.e ∧ r.e ≤ L.length ∧ ∀ i (hi : i < L.length), (r.b ≤ i ∧ i < r.e) ↔ p <+: L[i] := by
  have lt := fun i j hi hj h => List.pairwise_iff_getElem.mp hs i j hi hj h
  obtain ⟨b, b1, b2⟩ := exists_point (P := fun s => s < p) (l := L) (fun i j hi hj h hj' => List.lt_trans (lt i j hi hj h) hj')
  obtain ⟨e, e1, e2⟩ := exists_point (P := fun s => ¬ FcDict.Gt p s) (l := L) (fun i j hi hj h hj' hg => hj' (hg.mono (lt i j hi hj h)))
  have hbe : b ≤ e := by
    apply Nat.le_of_not_lt
    intro h
    have h1 := (b2 e (by omega)).mpr h
    have h2 : FcDict.Gt p (L[e]'(by omega)) := Classical.not_not.mp (fun hn => absurd ((e2 e (by omega)).mp hn) (by omega))
    exact absurd h1 (List.not_lt.mpr (List.le_of_lt h2.1))
  refine ⟨⟨b, e⟩, ?_, hbe, e1, ?_⟩
  · unfold locatePrefix
    rw [partitionPoint_spec b1, M.ok_bind, partitionPoint_spec e1]
    · rfl
    · intro i hi
      have h := e2 i hi
      rw [← compR_iff hp (ht _ (List.getElem_mem hi))] at h
      rw [Bool.eq_iff_iff, decide_eq_true_iff, ← h]
      simp
    · intro i hi
      rw [compL_iff (ht _ (List.getElem_mem hi)) hp, decide_eq_decide]
      exact b2 i hi
  · intro i hi
    have h1 := b2 i hi
    have h2 := e2 i hi
    show b ≤ i ∧ i < e ↔ _
    rw [← h2, ← Nat.not_lt, ← h1]
    constructor
    · rintro ⟨c1, c2⟩
      rcases FcDict.class3 p L[i] with h | h | h
      · exact absurd h c1
      · exact h
      · exact absurd h c2
    · intro h
      exact ⟨FcDict.prefix_not_lt h, fun hg => hg.2 h⟩

/-! ## std::unique -/

theorem unique_spec : ∀ {l : List Nat}, l.Pairwise (· ≤ ·) → (unique l).Pairwise (· < ·) ∧ (∀ x, x ∈ unique l ↔ x ∈ l) ∧ (unique l).length ≤ l.length
  | [], _ => by simp [unique]
  | [x], _ => by simp [unique]
  | x :: y :: l, h => by
      obtain ⟨h1, h2⟩ := List.pairwise_cons.mp h
      obtain ⟨i1, i2, i3⟩ := unique_spec h2
      unfold unique
      split
      · rename_i e
        subst e
        refine ⟨i1, fun z => ?_, by simp only [List.length_cons] at i3 ⊢; omega⟩
        rw [i2 z]; simp
      · rename_i e
        refine ⟨List.pairwise_cons.mpr ⟨fun z hz => ?_, i1⟩, fun z => ?_, by simp only [List.length_cons] at i3 ⊢; omega⟩
        · have hz' := (i2 z).mp hz
          have hy := h1 y (by simp)
          rcases List.mem_cons.mp hz' with rfl | hz'
          · omega
          · have := (List.pairwise_cons.mp h2).1 z hz'; omega
        · rw [List.mem_cons, i2 z, List.mem_cons, List.mem_cons, List.mem_cons]

end AC.Tests
