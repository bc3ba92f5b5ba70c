import Verif.Spec.Query
/-!
# Removing completions from a collection
-/
namespace AC.Spec

/-- the results whose documents are in a collection -/
def remaining (D : Coll) (res : List (Nat × Str)) : List (Nat × Str) := res.filter (fun e => (D.map (·.1)).contains e.1)

/-- After the removal, the results that remain come first, in their order; and when nothing is removed from the results, they stay the same. -/
def StaysAhead (D : Coll) (res res' : List (Nat × Str)) : Prop :=
  remaining D res <+: res' ∧ (res ≠ [] → (∀ e ∈ res, ∃ c, (e.1, c) ∈ D) → res' = res)

end AC.Spec
