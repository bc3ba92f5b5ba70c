import Verif.Spec.Blocks
/-!
# What the tests draw and what they compare, for C75
-/
namespace AC.Tests
open Spec

/-- Numbers of terms are drawn, and one of the first `fuel` rounds has two different ones. -/
def Drawn (numTerms fuel : Nat) (draw : Nat → List Nat) : Prop :=
  (∀ i, ∀ x ∈ draw i, 1 ≤ x ∧ x ≤ numTerms) ∧ ∃ i < fuel, ∃ x ∈ draw i, ∃ y ∈ draw i, x ≠ y

/-- The query made from the numbers drawn round after round: the different numbers of the first round with at least two of them, in order -/
def QueryOf (draw : Nat → List Nat) (q : List Nat) : Prop :=
  q.Pairwise (· < ·) ∧ ∃ i, (∀ j < i, ∀ x ∈ draw j, ∀ y ∈ draw j, x = y) ∧ (∃ x ∈ draw i, ∃ y ∈ draw i, x ≠ y) ∧ ∀ x, x ∈ q ↔ x ∈ draw i

/-- the document `d` has all the terms, which lie in one block the first document of which it is -/
def LostIn (lists : List (List Nat)) (bounds : List Nat) (q : List Nat) (d : Nat) : Prop :=
  (∀ t ∈ q, Posted lists t d) ∧ FirstOfOne lists bounds q d

end AC.Tests
