/-!
# Orders
-/
namespace AC.Spec

/-- what the standard library asks of a comparator: irreflexive, transitive, and being equivalent is transitive -/
structure StrictWeak {α : Type} (comp : α → α → Bool) : Prop where
  irrefl : ∀ x, comp x x = false
  trans : ∀ x y z, comp x y = true → comp y z = true → comp x z = true
  equiv : ∀ x y z, comp x y = false → comp y x = false → comp y z = false → comp z y = false → comp x z = false

theorem StrictWeak.neg {α : Type} {comp : α → α → Bool} (h : StrictWeak comp) (x y z : α) (hxz : comp x z = true) : comp x y = true ∨ comp y z = true := by
  cases h1 : comp x y with
  | true => exact .inl rfl
  | false =>
      cases h2 : comp y z with
      | true => exact .inr rfl
      | false =>
          exfalso
          cases h3 : comp y x with
          | true => rw [h.trans y x z h3 hxz] at h2; cases h2
          | false =>
              cases h4 : comp z y with
              | true => rw [h.trans x z y hxz h4] at h1; cases h1
              | false => rw [h.equiv x y z h1 h3 h2 h4] at hxz; cases hxz

end AC.Spec
