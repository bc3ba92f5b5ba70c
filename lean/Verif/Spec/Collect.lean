import Verif.Spec.Query
/-!
# The files of queries and their numbers
-/
namespace AC.Spec

/-- the numbers of terms of the queries of file `i`, as written in its name: 1 to 6, and 7+ -/
def shardName (i : Nat) : Str := if i < 6 then [49 + i] else [55, 43]

/-- `i + 1` terms, or seven and more for `i = 6` -/
def ofShard (i : Nat) (c : List Str) : Bool := if i < 6 then c.length == i + 1 else 7 ≤ c.length

/-- `Q` are queries chosen from the completions of `i + 1` terms, or of seven and more for `i = 6`: `n` of them, or all -/
def Chosen (C : Coll) (n i : Nat) (Q : List Str) : Prop :=
  ∃ R, let all := (C.filter fun r => ofShard i r.2).map fun r => joined r.2
    (Q ++ R).Perm all ∧ Q.length = min n all.length

end AC.Spec
