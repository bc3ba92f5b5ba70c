import Verif.Spec.Query
/-!
# Queries of the benchmarks
-/
namespace AC.Spec

/-- `w` is what is kept of the last term `t` of a query when the fraction `x / y` of it is asked for: a beginning of `t`, at least one
character, at least the fraction, and at most two characters more than needed for it -/
structure Kept (x y : Nat) (t w : Str) : Prop where
  beginning : w <+: t
  some : t ≠ [] → w ≠ []
  enough : t.length * x ≤ w.length * y
  notMore : ∀ i, t.length * x ≤ i * y → w.length ≤ i + 2

/-- `q` is the query made of a line: the complete terms of the line, and a part of its last term; what is before the last term is
unchanged -/
structure Shortened (x y : Nat) (line q : Str) : Prop where
  same : ∃ s, line = s ++ lastTerm line ∧ q = s ++ lastTerm q
  complete : completeTerms q = completeTerms line
  last : Kept x y (lastTerm line) (lastTerm q)

/-- the lines of a text, the last of which need not end with a newline -/
inductive Lines : Str → List Str → Prop
  | none : Lines [] []
  | last {l : Str} : l ≠ [] → 10 ∉ l → Lines l [l]
  | next {l s : Str} {ls : List Str} : 10 ∉ l → Lines s ls → Lines (l ++ 10 :: s) (l :: ls)

end AC.Spec

namespace AC.Spec

/-- the terms of a query, the incomplete one included -/
def queryTerms (q : Str) : List Str := completeTerms q ++ [lastTerm q]

/-- the numbers are those of the terms of the query: positions (from 0) in `T`, or a number that is not a position for a term that is not in `T` -/
structure Numbered (T : List Str) (q : Str) (ns : List Nat) : Prop where
  length : ns.length = (queryTerms q).length
  each : ∀ (j : Nat) (t : Str) (n : Nat), (queryTerms q)[j]? = some t → ns[j]? = some n → T[n]? = some t ∨ (t ∉ T ∧ T.length ≤ n)

/-- the 32-bit little-endian numbers of a binary file -/
def words32 : Str → Option (List Nat)
  | [] => some []
  | a :: b :: c :: d :: r => (words32 r).map ((a + 256 * b + 65536 * c + 16777216 * d) :: ·)
  | _ => none

/-- a sequence of lists, each with its length before it -/
inductive Lists : List Nat → List (List Nat) → Prop
  | none : Lists [] []
  | next {l ws : List Nat} {ls : List (List Nat)} : Lists ws ls → Lists (l.length :: (l ++ ws)) (l :: ls)

end AC.Spec
