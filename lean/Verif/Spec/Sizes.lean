import Verif.Spec.Query
/-!
# Specification: what the statistics of an index count
-/
namespace AC.Spec

/-- the number of terms of all completions, with repetitions -/
def numTokens (C : Coll) : Nat := (C.map (fun r => r.2.length)).sum

/-- the number of different terms in a list -/
def distinct : List Str → Nat
  | [] => 0
  | t :: ts => if t ∈ ts then distinct ts else distinct ts + 1

/-- the number of pairs of a completion and one of its terms -/
def numPostings (C : Coll) : Nat := (C.map (fun r => distinct r.2)).sum

/-- What is printed about the parts adds up: `total` is the sum of the sizes of the parts and of `fixed` bytes of numbers of fixed size -/
def AddsUp (total fixed : Nat) (parts : List Nat) : Prop := total = fixed + parts.sum

end AC.Spec
