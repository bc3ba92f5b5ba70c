import Verif.Spec.Query
/-!
# What the queries really return

The dictionaries do not find everything (see C11 and C12), so the answers of the queries are those of weaker notions of match. They are
stated here on collections.
-/
namespace AC.Spec

/-- `t` is a term of the collection -/
def IsTerm (C : Coll) (t : Str) : Prop := ∃ r ∈ C, t ∈ r.2

/-- the first term of the dictionary -/
def IsFirstTerm (C : Coll) (x : Str) : Prop := IsTerm C x ∧ ∀ t, IsTerm C t → ¬ t < x

/-- the terms that the dictionary finds for an incomplete term: all that start with it, but the first term of the dictionary counts
only when it is that term, or when nothing is asked -/
def Reaches (C : Coll) (last x : Str) : Prop := last <+: x ∧ (IsFirstTerm C x → last = [] ∨ last = x)

/-- prefix match, with the terms that the dictionary finds -/
def PrefixFound (C : Coll) (complete : List Str) (last : Str) (c : List Str) : Prop :=
  ∃ x, Reaches C last x ∧ (complete ++ [x]) <+: c

/-- the first completion of the collection -/
def IsFirstCompletion (C : Coll) (c : List Str) : Prop := ∃ d, C.head? = some (d, c)

/-- the smallest of the terms found for an incomplete term -/
def FirstReached (C : Coll) (last x : Str) : Prop :=
  IsTerm C x ∧ Reaches C last x ∧ ∀ y, IsTerm C y → Reaches C last y → ¬ y < x

/-- prefix match in the dictionary of completions: the first completion counts only when it has no more terms than the query, and its
last one is the smallest that can complete the query -/
def PrefixFound2 (C : Coll) (complete : List Str) (last : Str) (c : List Str) : Prop :=
  PrefixFound C complete last c ∧ (IsFirstCompletion C c → ∃ x, FirstReached C last x ∧ c = complete ++ [x])

/-- conjunctive match, with the terms that the dictionary finds -/
def ConjFound (C : Coll) (complete : List Str) (last : Str) (c : List Str) : Prop :=
  (∀ t ∈ complete, IsTerm C t → t ∈ c) ∧ ∃ x ∈ c, Reaches C last x

/-- the number of different terms of the collection -/
def NumTerms (C : Coll) (n : Nat) : Prop := ∃ L : List Str, L.Nodup ∧ (∀ t, t ∈ L ↔ IsTerm C t) ∧ L.length = n

/-- What type 1 needs besides a valid collection: a number of terms that is not a multiple of 17 (C10), and a term that is not in the
completion with document id 0 (C27). -/
structure Suits1 (C : Coll) : Prop where
  terms : ∃ n, NumTerms C n ∧ n % 17 ≠ 0
  doc0 : ∃ t, IsTerm C t ∧ ∀ c, (0, c) ∈ C → t ∉ c

/-- What type 3 needs besides a valid collection: numbers of terms and of completions that are not multiples of 17, and a document id
that is not 0 (C14). -/
structure Suits3 (C : Coll) : Prop where
  terms : ∃ n, NumTerms C n ∧ n % 17 ≠ 0
  count : C.length % 17 ≠ 0
  doc0 : ∃ r ∈ C, r.1 ≠ 0

/-- What type 2 needs besides a valid collection. -/
structure Suits2 (C : Coll) : Prop extends Suits1 C where
  count : C.length % 17 ≠ 0

/-- the incomplete term does not run into the defect of the dictionary: it is empty, or it is not the beginning of the first term, unless
it is all of it -/
def LastOk (C : Coll) (last : Str) : Prop := ∀ x, IsFirstTerm C x → last <+: x → last = [] ∨ last = x

/-- the number of bytes of the texts of some completions -/
def room (E : Coll) : Nat := (E.map (fun r => (joined r.2).length)).sum

end AC.Spec
