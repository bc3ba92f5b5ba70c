import Verif.Spec.Query
/-!
# Queries and completions as texts
-/
namespace AC.Spec

/-- a query as one types it: it does not begin with a space, and there are no two spaces in a row -/
structure Tidy (q : Str) : Prop where
  first : q.head? ≠ some space
  single : ∀ a b : Str, q ≠ a ++ space :: space :: b

/-- what is left of a text when every space that is the first character or comes after a space is removed; `after` tells whether the character before is a
space, or there is none -/
def squeezeFrom : Bool → Str → Str
  | _, [] => []
  | after, c :: q => if c = space then (if after then squeezeFrom true q else space :: squeezeFrom true q) else c :: squeezeFrom false q

def squeeze (q : Str) : Str := squeezeFrom true q

/-- the text of the completion begins with the query, up to spaces that do not separate anything -/
def TextMatch (q : Str) (c : List Str) : Prop := squeeze q <+: joined c

/-- all characters come after the space -/
def AfterSpace (t : Str) : Prop := ∀ c ∈ t, space < c

end AC.Spec
