/-!
# Lists related element by element, strictly increasing lists
-/
namespace AC

inductive All2 {α β : Type} (R : α → β → Prop) : List α → List β → Prop
  | nil : All2 R [] []
  | cons {a b as bs} : R a b → All2 R as bs → All2 R (a :: as) (b :: bs)

namespace All2
variable {α β : Type} {R : α → β → Prop}

theorem length {as : List α} {bs : List β} (h : All2 R as bs) : as.length = bs.length := by
  induction h with
  | nil => rfl
  | cons _ _ ih => simp [ih]

theorem get {as : List α} {bs : List β} (h : All2 R as bs) : ∀ (i : Nat) (h1 : i < as.length) (h2 : i < bs.length), R as[i] bs[i] := by
  induction h with
  | nil => intro i h1; simp at h1
  | cons h _ ih =>
      intro i h1 h2
      cases i with
      | zero => exact h
      | succ i => exact ih i (by simpa using h1) (by simpa using h2)

theorem of_get {as : List α} : ∀ {bs : List β}, as.length = bs.length →
    (∀ (i : Nat) (h1 : i < as.length) (h2 : i < bs.length), R as[i] bs[i]) → All2 R as bs := by
  induction as with
  | nil => intro bs hl _; rw [List.length_eq_zero_iff.mp hl.symm]; exact .nil
  | cons a as ih =>
      intro bs hl h
      cases bs with
      | nil => simp at hl
      | cons b bs =>
          exact .cons (h 0 (by simp) (by simp)) (ih (by simpa using hl)
            (fun i h1 h2 => h (i + 1) (by simpa using h1) (by simpa using h2)))

theorem set {as : List α} {bs : List β} (h : All2 R as bs) {i : Nat} {a : α} (hi : i < bs.length) (ha : R a bs[i]) :
    All2 R (as.set i a) bs := by
  apply of_get
  · rw [List.length_set]; exact h.length
  · intro j h1 h2
    rw [List.getElem_set]
    split
    · rename_i hij; subst hij; exact ha
    · exact h.get j (by simpa using h1) h2

theorem perm {as as' : List α} (hp : as.Perm as') : ∀ {bs : List β}, All2 R as bs → ∃ bs', bs.Perm bs' ∧ All2 R as' bs' := by
  induction hp with
  | nil => intro bs h; exact ⟨bs, List.Perm.refl _, h⟩
  | cons a _ ih =>
      intro bs h
      cases h with
      | cons h1 h2 =>
          obtain ⟨bs', p, q⟩ := ih h2
          exact ⟨_ :: bs', p.cons _, .cons h1 q⟩
  | swap a b l =>
      intro bs h
      cases h with
      | cons h1 h2 =>
          cases h2 with
          | cons h3 h4 => exact ⟨_, List.Perm.swap _ _ _, .cons h3 (.cons h1 h4)⟩
  | trans _ _ ih1 ih2 =>
      intro bs h
      obtain ⟨bs1, p1, q1⟩ := ih1 h
      obtain ⟨bs2, p2, q2⟩ := ih2 q1
      exact ⟨bs2, p1.trans p2, q2⟩

theorem imp {S : α → β → Prop} {as : List α} {bs : List β} (h : All2 R as bs) (hRS : ∀ a b, R a b → S a b) : All2 S as bs := by
  induction h with
  | nil => exact .nil
  | cons h _ ih => exact .cons (hRS _ _ h) ih

theorem append {as as' : List α} {bs bs' : List β} (h : All2 R as bs) (h' : All2 R as' bs') :
    All2 R (as ++ as') (bs ++ bs') := by
  induction h with
  | nil => exact h'
  | cons h _ ih => exact .cons h ih

theorem append_inv {as as' : List α} : ∀ {bs : List β}, All2 R (as ++ as') bs →
    ∃ b1 b2, bs = b1 ++ b2 ∧ All2 R as b1 ∧ All2 R as' b2 := by
  induction as with
  | nil => intro bs h; exact ⟨[], bs, rfl, .nil, h⟩
  | cons a as ih =>
      intro bs h
      cases h with
      | cons h1 h2 =>
          obtain ⟨b1, b2, e, p, q⟩ := ih h2
          exact ⟨_ :: b1, b2, by rw [e]; rfl, .cons h1 p, q⟩

end All2

/-- a strictly increasing list is determined by its elements -/
theorem strict_ext : ∀ {as bs : List Nat}, as.Pairwise (· < ·) → bs.Pairwise (· < ·) → (∀ x, x ∈ as ↔ x ∈ bs) → as = bs := by
  intro as
  induction as with
  | nil =>
      intro bs _ _ h
      cases bs with
      | nil => rfl
      | cons b bs => exact absurd ((h b).mpr (List.mem_cons_self ..)) (by simp)
  | cons a as ih =>
      intro bs ha hb h
      cases bs with
      | nil => exact absurd ((h a).mp (List.mem_cons_self ..)) (by simp)
      | cons b bs =>
          obtain ⟨a1, a2⟩ := List.pairwise_cons.mp ha
          obtain ⟨b1, b2⟩ := List.pairwise_cons.mp hb
          have hab : a = b := by
            rcases List.mem_cons.mp ((h a).mp (List.mem_cons_self ..)) with h1 | h1
            · exact h1
            · rcases List.mem_cons.mp ((h b).mpr (List.mem_cons_self ..)) with h2 | h2
              · exact h2.symm
              · have := b1 a h1; have := a1 b h2; omega
          subst hab
          congr 1
          apply ih a2 b2
          intro x
          constructor
          · intro hx
            rcases List.mem_cons.mp ((h x).mp (List.mem_cons_of_mem _ hx)) with h1 | h1
            · have := a1 x hx; omega
            · exact h1
          · intro hx
            rcases List.mem_cons.mp ((h x).mpr (List.mem_cons_of_mem _ hx)) with h1 | h1
            · have := b1 x hx; omega
            · exact h1

end AC
