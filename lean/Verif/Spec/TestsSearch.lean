import Verif.Spec.Actual
/-!
# What the test of `locate_prefix` compares
-/
namespace AC.Spec

/-- some completion has the property, and the completions with the property are those whose text begins with the query -/
def Agree (C : Coll) (P : List Str → Prop) (q : Str) : Prop := (∃ r ∈ C, P r.2) ∧ ∀ r ∈ C, q <+: joined r.2 ↔ P r.2

/-- both structures find some completion, and exactly those whose text begins with the query -/
def Passes (C : Coll) (q : Str) : Prop :=
  Agree C (PrefixFound C (completeTerms q) (lastTerm q)) q ∧ Agree C (PrefixFound2 C (completeTerms q) (lastTerm q)) q

/-- a line of the collection: a score without spaces, a space, and the text of the completion -/
def LineOf (l : Str) (r : Nat × List Str) : Prop := ∃ score : Str, space ∉ score ∧ l = score ++ space :: joined r.2

end AC.Spec
