/-!
# The k smallest
-/
namespace AC.Spec

/-- `E` lists, in increasing order, the `k` smallest of the numbers with property `P` (all of them when there are at most `k`) -/
structure IsTopK (P : Nat → Prop) (k : Nat) (E : List Nat) : Prop where
  sorted : E.Pairwise (· < ·)
  sound : ∀ x ∈ E, P x
  le : E.length ≤ k
  complete : ∀ x, P x → x ∉ E → E.length = k ∧ ∀ e ∈ E, e < x

/-- `E` lists, in increasing order, the `k` smallest of the numbers of `L`, with multiplicity: it is the beginning of `L` sorted -/
def IsSortedPrefix (L : List Nat) (k : Nat) (E : List Nat) : Prop :=
  ∃ S : List Nat, S.Perm L ∧ S.Pairwise (· ≤ ·) ∧ E = S.take k

end AC.Spec
