import Verif.Spec.Query
/-!
# Collections with the same texts and other document ids
-/
namespace AC.Spec

/-- the same texts with document ids in the same order -/
def SameOrder (C D : Coll) : Prop :=
  C.map (·.2) = D.map (·.2) ∧ ∀ d e d' e' x y, (d, x) ∈ C → (e, y) ∈ C → (d', x) ∈ D → (e', y) ∈ D → (d < e ↔ d' < e')

/-- the same texts, and a completion of which no more are ahead than before -/
def NotWorse (C D : Coll) (c : List Str) : Prop :=
  C.map (·.2) = D.map (·.2) ∧ ∀ d d' e e' x, (d, c) ∈ C → (d', c) ∈ D → (e, x) ∈ C → (e', x) ∈ D → e' < d' → e < d

end AC.Spec
