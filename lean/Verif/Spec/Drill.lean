import Verif.Spec.TextPrefix
import Verif.Spec.Actual
/-!
# A query and its continuations by one character
-/
namespace AC.Spec

/-- the completion whose text is the query, up to spaces that do not separate anything, if there is one -/
def typedIn (C : Coll) (q : Str) : List (Nat × Str) := (C.filter (fun r => joined r.2 == squeeze q)).map shown

/-- `c` comes after the query in the text of a completion -/
def NextIn (C : Coll) (q : Str) (c : Nat) : Prop := ∃ r ∈ C, squeeze q ++ [c] <+: joined r.2

/-- `c` comes after the last word of the query in a term -/
def NextInTerm (C : Coll) (q : Str) (c : Nat) : Prop := ∃ t, IsTerm C t ∧ lastTerm q ++ [c] <+: t

/-- the completion that was typed in full, and the results of the continuations -/
def withTyped {ι : Type} (C : Coll) (q : Str) (res : ι → List (Nat × Str)) : Option ι → List (Nat × Str)
  | none => typedIn C q
  | some i => res i

end AC.Spec
