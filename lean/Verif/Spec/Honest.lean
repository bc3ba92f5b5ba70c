import Verif.Spec.Lossy
/-!
# What every result is, whatever the collection
-/
namespace AC.Spec

/-- at most `k` results, each of them a completion of the collection with property `P`, with its document id and its text -/
structure Honest (C : Coll) (P : List Str → Prop) (k : Nat) (res : List (Nat × Str)) : Prop where
  le : res.length ≤ k
  sound : ∀ e ∈ res, ∃ c, (e.1, c) ∈ C ∧ e.2 = joined c ∧ P c

/-- the ids increase: the results are different, the best ones first -/
def Ranked (res : List (Nat × Str)) : Prop := res.Pairwise (fun a b => a.1 < b.1)

/-- The complete terms of the query that the collection has are in the completion, and so is a term that starts with the incomplete one. Only when the
number of terms is a multiple of 17 may a complete term be missing, and then it is one of the last 16 terms of the collection. -/
def ConjMost (C : Coll) (complete : List Str) (last : Str) (c : List Str) : Prop :=
  (∀ t ∈ complete, IsTerm C t → t ∈ c ∨ (AmongLast C 16 t ∧ ∀ n, NumTerms C n → n % 17 = 0)) ∧ ∃ x ∈ c, last <+: x

end AC.Spec
