import Verif.Spec.Query
/-!
# The terms of a collection
-/
namespace AC.Spec

/-- `T` are the terms of `C`, in their order -/
def TermsOf (C : Coll) (T : List Str) : Prop := T.Pairwise (· < ·) ∧ ∀ t, t ∈ T ↔ ∃ r ∈ C, t ∈ r.2

/-- the bucket sizes for which the dictionary of terms is measured -/
def measuredSizes : List Nat := [4, 8, 16, 32, 64, 128, 256]

end AC.Spec
