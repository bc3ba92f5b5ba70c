import Verif.Spec.TextPrefix
/-!
# What one sees while typing
-/
namespace AC.Spec

/-- a result is among the `k` shown, or all of these are better -/
def Offered (k : Nat) (res : List (Nat × Str)) (e : Nat × Str) : Prop := e ∈ res ∨ (res.length = k ∧ ∀ f ∈ res, f.1 < e.1)

end AC.Spec
