import Verif.Spec.Query
/-!
# Merging the results of several indexes
-/
namespace AC.Spec

/-- `res` lists the `k` best of the results of several indexes (all of them when there are at most `k`), each once, in the order of their document ids -/
structure MergeOf {ι : Type} (k : Nat) (parts : ι → List (Nat × Str)) (res : List (Nat × Str)) : Prop where
  sound : ∀ e ∈ res, ∃ i, e ∈ parts i
  sorted : res.Pairwise (fun a b => a.1 < b.1)
  le : res.length ≤ k
  complete : ∀ i, ∀ e ∈ parts i, e ∉ res → res.length = k ∧ ∀ f ∈ res, f.1 < e.1

end AC.Spec
