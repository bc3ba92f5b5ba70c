import Verif.Spec.Actual
/-!
# Other terms
-/
namespace AC.Spec

/-- the collection with `g t` in place of every term `t` -/
def withTerms (g : Str → Str) (C : Coll) : Coll := C.map fun r => (r.1, r.2.map g)

/-- `g` keeps the order of the terms -/
def KeepsOrder (C : Coll) (g : Str → Str) : Prop := ∀ s t, IsTerm C s → IsTerm C t → s < t → g s < g t

/-- the same documents have the same terms, perhaps in another order or another number of times -/
def SameTerms (R R' : Coll) : Prop := ∀ d t, (∃ c, (d, c) ∈ R ∧ t ∈ c) ↔ ∃ c, (d, c) ∈ R' ∧ t ∈ c

end AC.Spec
