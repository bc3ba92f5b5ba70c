import Verif.Spec.TopK
/-!
# The k smallest: uniqueness
-/
namespace AC.Spec

theorem sorted_perm_unique {A B : List Nat} (hA : A.Pairwise (· ≤ ·)) (hB : B.Pairwise (· ≤ ·)) (h : A.Perm B) : A = B := by
  induction A generalizing B with
  | nil => exact (List.nil_perm.mp h).symm
  | cons a A ih =>
      cases B with
      | nil => exact absurd h.length_eq (by simp)
      | cons b B =>
          rw [List.pairwise_cons] at hA hB
          have hab : a = b := by
            have h1 : b ∈ a :: A := h.mem_iff.mpr (List.mem_cons_self ..)
            have h2 : a ∈ b :: B := h.mem_iff.mp (List.mem_cons_self ..)
            have h3 : a ≤ b := by
              rcases List.mem_cons.mp h1 with h1 | h1
              · omega
              · exact hA.1 b h1
            have h4 : b ≤ a := by
              rcases List.mem_cons.mp h2 with h2 | h2
              · omega
              · exact hB.1 a h2
            omega
          subst hab
          rw [ih hA.2 hB.2 (List.perm_cons a |>.mp h)]

/-- there is only one list of the `k` smallest -/
theorem IsSortedPrefix.unique {L : List Nat} {k : Nat} {E F : List Nat} (h1 : IsSortedPrefix L k E) (h2 : IsSortedPrefix L k F) :
    E = F := by
  obtain ⟨S, s1, s2, rfl⟩ := h1
  obtain ⟨T, t1, t2, rfl⟩ := h2
  rw [sorted_perm_unique s2 t2 (s1.trans t1.symm)]

theorem strict_take {A B : List Nat} (hA : A.Pairwise (· < ·)) (hB : B.Pairwise (· < ·)) {k : Nat} (hk : A.length ≤ k)
    (h1 : ∀ x ∈ A, x ∈ B) (h2 : ∀ x ∈ B, x ∉ A → A.length = k ∧ ∀ e ∈ A, e < x) : A = B.take k := by
  induction B generalizing A k with
  | nil =>
      cases A with
      | nil => simp
      | cons a A => exact absurd (h1 a (List.mem_cons_self ..)) (by simp)
  | cons b B ih =>
      rw [List.pairwise_cons] at hB
      cases k with
      | zero => rw [List.take_zero]; exact List.length_eq_zero_iff.mp (by omega)
      | succ k =>
          cases A with
          | nil =>
              have := (h2 b (List.mem_cons_self ..) (by simp)).1
              simp at this
          | cons a A =>
              rw [List.pairwise_cons] at hA
              have hab : a = b := by
                rcases List.mem_cons.mp (h1 a (List.mem_cons_self ..)) with h | h
                · exact h
                · have hlt := hB.1 a h
                  by_cases hb : b ∈ a :: A
                  · rcases List.mem_cons.mp hb with hb | hb
                    · exact hb.symm
                    · have := hA.1 b hb; omega
                  · have := (h2 b (List.mem_cons_self ..) hb).2 a (List.mem_cons_self ..); omega
              subst hab
              rw [List.take_succ_cons]
              congr 1
              simp only [List.length_cons] at hk
              apply ih hA.2 hB.2 (by omega)
              · intro x hx
                rcases List.mem_cons.mp (h1 x (List.mem_cons_of_mem _ hx)) with h | h
                · subst h; exact absurd (hA.1 x hx) (by omega)
                · exact h
              · intro x hx hxA
                have hax := hB.1 x hx
                have := h2 x (List.mem_cons_of_mem _ hx) (by simp only [List.mem_cons, not_or]; exact ⟨by omega, hxA⟩)
                simp only [List.length_cons] at this
                exact ⟨by omega, fun e he => this.2 e (List.mem_cons_of_mem _ he)⟩

/-- the `k` smallest numbers below `n` with a property -/
theorem IsTopK.eq_filter {P : Nat → Bool} {n k : Nat} {E : List Nat} (h : IsTopK (fun x => x < n ∧ P x = true) k E) :
    E = ((List.range n).filter P).take k := by
  apply strict_take h.sorted
  · exact List.Pairwise.filter _ List.pairwise_lt_range
  · exact h.le
  · intro x hx
    have := h.sound x hx
    rw [List.mem_filter, List.mem_range]
    exact this
  · intro x hx hxE
    rw [List.mem_filter, List.mem_range] at hx
    exact h.complete x hx hxE

/-- there is only one list of the `k` smallest -/
theorem IsTopK.unique {P Q : Nat → Prop} {k : Nat} {E F : List Nat} (hPQ : ∀ x, P x ↔ Q x) (h1 : IsTopK P k E) (h2 : IsTopK Q k F) :
    E = F := by
  have key : ∀ {P Q : Nat → Prop} {E F : List Nat}, (∀ x, P x ↔ Q x) → IsTopK P k E → IsTopK Q k F → ∀ x ∈ E, x ∈ F := by
    intro P Q E F hPQ h1 h2 x hx
    apply Classical.byContradiction
    intro hxF
    obtain ⟨g1, g2⟩ := h2.complete x ((hPQ x).mp (h1.sound x hx)) hxF
    have hFE : ∀ y ∈ F, y ∈ E := by
      intro y hy
      apply Classical.byContradiction
      intro hyE
      have := (h1.complete y ((hPQ y).mpr (h2.sound y hy)) hyE).2 x hx
      have := g2 y hy
      omega
    have e : F = E.take k := strict_take h2.sorted h1.sorted h2.le hFE
      (fun y hy hyF => h2.complete y ((hPQ y).mp (h1.sound y hy)) hyF)
    rw [List.take_of_length_le h1.le] at e
    exact hxF (e ▸ hx)
  have e1 := strict_take h1.sorted h2.sorted h1.le (key hPQ h1 h2)
    (fun x hx hxE => absurd (key (fun x => (hPQ x).symm) h2 h1 x hx) hxE)
  rw [e1, List.take_of_length_le h2.le]

end AC.Spec
