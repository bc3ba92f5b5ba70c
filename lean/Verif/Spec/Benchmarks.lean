import Verif.Spec.Actual
/-!
# What the benchmarks report
-/
namespace AC.Spec

/-- the positions from `b` to before `e` in the collection are those of the completions with property `P`; or there is none, and the range is the invalid one -/
def RangeOf (C : Coll) (P : List Str → Prop) (invalid : Prop) (b e : Nat) : Prop :=
  (invalid ∧ ∀ r ∈ C, ¬ P r.2) ∨ (b < e ∧ e ≤ C.length ∧ ∀ i (hi : i < C.length), (b ≤ i ∧ i < e) ↔ P C[i].2)

/-- `y` is the term that follows the term `x` in the sorted list of the terms -/
def Follows (C : Coll) (x y : Str) : Prop := IsTerm C x ∧ IsTerm C y ∧ x < y ∧ ∀ t, IsTerm C t → ¬ (x < t ∧ t < y)

/-- the completion starts with the complete terms and a term that is followed, in the list of the terms, by one that is found for the incomplete term -/
def PrefixBefore (C : Coll) (complete : List Str) (last : Str) (c : List Str) : Prop :=
  ∃ x y, Follows C x y ∧ Reaches C last y ∧ (complete ++ [x]) <+: c

/-- the known complete terms of the query before the first unknown one, and that one; or all of them and the last term -/
structure StopsAt (C : Coll) (q : Str) (done : List Str) (last : Str) : Prop where
  known : ∀ t ∈ done, IsTerm C t
  stop : (done = completeTerms q ∧ last = lastTerm q) ∨ ∃ rest, completeTerms q = done ++ last :: rest ∧ ¬ IsTerm C last

/-- The completion starts with the complete terms and a term that is followed, in the list of the terms, by one that is found for the incomplete term; or it consists of the
complete terms, and the first of all the terms is found for the incomplete term. -/
def Shifted (C : Coll) (done : List Str) (last : Str) (c : List Str) : Prop :=
  PrefixBefore C done last c ∨ ((∃ x, IsFirstTerm C x ∧ Reaches C last x) ∧ c = done)

/-- the last term of the query stands for one term only, and `x` is the term before that one -/
def BeforeOnly (C : Coll) (last x : Str) : Prop := ∃ y, Follows C x y ∧ Reaches C last y ∧ ∀ z, IsTerm C z → Reaches C last z → z = y

/-- The completion starts with the given terms and a term that is followed by one that is found for the incomplete term; the first completion counts only when it has no more
terms, and its last one is the smallest possible. -/
def ShiftedFc (C : Coll) (done : List Str) (last : Str) (c : List Str) : Prop :=
  PrefixBefore C done last c ∧ (IsFirstCompletion C c → ∃ x y, Follows C x y ∧ FirstReached C last y ∧ c = done ++ [x])

/-- The terms that are added to the query by the first `k` runs of the benchmark: every run that finds nothing adds the term before the only one that is meant. -/
structure Added (C : Coll) (done : List Str) (last : Str) (k : Nat) (xs : List Str) : Prop where
  same : ∀ x ∈ xs, BeforeOnly C last x
  before : ∀ j < xs.length, ∀ r ∈ C, ¬ ShiftedFc C (done ++ xs.take j) last r.2
  stop : xs.length = k ∨ (xs.length < k ∧ ((∃ r ∈ C, ShiftedFc C (done ++ xs) last r.2) ∨ ∀ x, ¬ BeforeOnly C last x))

end AC.Spec
