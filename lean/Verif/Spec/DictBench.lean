import Verif.Spec.Strings
import Verif.Model.Constants
/-!
# C74: what the benchmarks of the dictionaries should measure
-/
namespace AC.Spec

/-- The strings that a dictionary with buckets of size `B` keeps: when their number is a multiple of `B + 1` the last `B` are
lost (C73). -/
def keptOf {α : Type} (B : Nat) (L : List α) : List α := if L.length % (B + 1) = 0 then L.take (L.length - B) else L

/-- the first `c / 4` of the bytes of `q`, at least one -/
def firstPart (c : Nat) (q : Str) : Str := q.take (max 1 (q.length * c / 4))

/-- `r` is the interval of the positions of the strings of `K` that start with `p`; the first string does not count unless
it is `p`; there may be none -/
def IntervalOf (K : List Str) (p : Str) (r : Range) : Prop :=
  (r = Range.invalid ∧ ∀ i (hi : i < K.length), p <+: K[i] → i = 0 ∧ p ≠ K[i]) ∨
    (r.b ≤ r.e ∧ r.e < K.length ∧ ∀ i (hi : i < K.length), (r.b ≤ i ∧ i ≤ r.e) ↔ (p <+: K[i] ∧ ¬ (i = 0 ∧ p ≠ K[i])))

end AC.Spec
