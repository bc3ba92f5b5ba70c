import Verif.Proofs.CartesianTree
/-!
# C15: range-minimum queries
-/
namespace AC.Props
open AC

/-- every non-empty range has a leftmost minimum -/
theorem leftmost_min (v : List Nat) (a : Nat) : ∀ n (h : a + n < v.length), ∃ m, ∃ hm : m < v.length, a ≤ m ∧ m ≤ a + n ∧
    (∀ k (hk : k ≤ a + n), a ≤ k → v[m] ≤ v[k]) ∧ (∀ k (hk : k < m), a ≤ k → v[m] < v[k]) := by
  intro n
  induction n with
  | zero =>
      intro h
      refine ⟨a, h, Nat.le_refl _, Nat.le_refl _, ?_, fun k hk hak => by omega⟩
      intro k hk hak
      have : k = a := by omega
      subst this
      exact Nat.le_refl _
  | succ n ih =>
      intro h
      obtain ⟨m, hm, h1, h2, h3, h4⟩ := ih (by omega)
      by_cases hlt : v[a + (n + 1)] < v[m]
      · refine ⟨a + (n + 1), h, by omega, Nat.le_refl _, ?_, ?_⟩
        · intro k hk hak
          by_cases hke : k = a + (n + 1)
          · subst hke; exact Nat.le_refl _
          · have := h3 k (by omega) hak; omega
        · intro k hk hak
          have := h3 k (by omega) hak; omega
      · refine ⟨m, hm, h1, by omega, ?_, h4⟩
        intro k hk hak
        by_cases hke : k = a + (n + 1)
        · subst hke; omega
        · exact h3 k (by omega) hak

/-- C15: for every list of values, `rmq(a, b)` is the position of the leftmost minimum of `[a, b]` -/
theorem C15_rmq (v : List Nat) (after : W) (hv : v.length < 2 ^ 30 - 1) :
    ∃ t, CT.build v after = .ok t ∧ CT.size t = v.length ∧
      ∀ a b, a ≤ b → (hb : b < v.length) → ∃ m, ∃ _ : a ≤ m, ∃ _ : m ≤ b, CT.rmq t a b = .ok m ∧
        (∀ k (_ : k ≤ b), a ≤ k → v[m] ≤ v[k]) ∧ (∀ k (_ : k < m), a ≤ k → v[m] < v[k]) := by
  obtain ⟨t, t1, t2⟩ := CT.build_spec v after hv
  refine ⟨t, t1, by unfold CT.size; rw [t2.size]; omega, ?_⟩
  intro a b hab hb
  obtain ⟨n, rfl⟩ := Nat.exists_eq_add_of_le hab
  obtain ⟨m, hm, h1, h2, h3, h4⟩ := leftmost_min v a n hb
  exact ⟨m, h1, h2, CT.rmq_spec t2 hab hb h1 h2 h3 h4, h3, h4⟩

/-- seven values with a repeated minimum: the leftmost is found -/
example : [5, 3, 4, 1, 6, 1, 2].length < 2 ^ 30 - 1 := by decide

example : (CT.build [5, 3, 4, 1, 6, 1, 2] 0 >>= fun t => do
    let x ← CT.rmq t 0 6; let y ← CT.rmq t 4 6; let z ← CT.rmq t 0 2; .ok (x, y, z)) = .ok (3, 5, 1) := by decide +kernel

end AC.Props
