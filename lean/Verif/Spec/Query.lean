import Verif.Spec.Strings
/-!
# Queries, collections and matches
-/
namespace AC.Spec

/-- the space character -/
def space : Nat := 32

/-- the pieces of a string between spaces; there is one more of them than there are spaces -/
def pieces : Str → List Str
  | [] => [[]]
  | c :: s =>
      if c = space then [] :: pieces s
      else match pieces s with
        | [] => [[c]]
        | p :: ps => (c :: p) :: ps

/-- the complete terms of a query: what comes before the last space, runs of spaces counting as one -/
def completeTerms (q : Str) : List Str := (pieces q).dropLast.filter (fun p => !p.isEmpty)

/-- the incomplete term of a query: what comes after the last space, possibly nothing -/
def lastTerm (q : Str) : Str := (pieces q).getLastD []

/-- terms joined by single spaces -/
def joined : List Str → Str
  | [] => []
  | [t] => t
  | t :: t' :: ts => t ++ space :: joined (t' :: ts)

/-- A collection: the completions with their document ids, as lists of terms. -/
abbrev Coll := List (Nat × List Str)

/-- the completion `c` starts with the complete terms, followed by a term that starts with the last one -/
def PrefixMatch (complete : List Str) (last : Str) (c : List Str) : Prop :=
  ∃ x, last <+: x ∧ (complete ++ [x]) <+: c

/-- the completion `c` contains all the complete terms that occur in the collection, and a term that starts with the last one -/
def ConjMatch (C : Coll) (complete : List Str) (last : Str) (c : List Str) : Prop :=
  (∀ t ∈ complete, (∃ r ∈ C, t ∈ r.2) → t ∈ c) ∧ ∃ x ∈ c, last <+: x

/-- document `d` is a completion with property `P` -/
def Doc (C : Coll) (P : List Str → Prop) (d : Nat) : Prop := ∃ c, (d, c) ∈ C ∧ P c

/-- `E` lists the `k` best completions with property `P` (all of them when there are at most `k`), in the order of their document
ids -/
structure Best (C : Coll) (P : List Str → Prop) (k : Nat) (E : Coll) : Prop where
  sound : ∀ r ∈ E, r ∈ C ∧ P r.2
  sorted : E.Pairwise (fun a b => a.1 < b.1)
  le : E.length ≤ k
  complete : ∀ r ∈ C, P r.2 → r ∉ E → E.length = k ∧ ∀ e ∈ E, e.1 < r.1

/-- a result as a client sees it: its document id and its text -/
def shown (r : Nat × List Str) : Nat × Str := (r.1, joined r.2)

/-- `res` lists the `k` best results for property `P`, each with its text -/
def Answer (C : Coll) (P : List Str → Prop) (k : Nat) (res : List (Nat × Str)) : Prop :=
  ∃ E, Best C P k E ∧ res = E.map shown

/-- What a collection must satisfy. The first six conditions are those of the README and of the scripts: there are completions,
with different document ids, in lexicographic order, each of at least one term, terms being words without spaces and NUL bytes.
The others are the limits of the implementation: `MAX_NUM_TERMS_PER_QUERY`, `MAX_NUM_CHARS_PER_QUERY`, 32-bit document ids, and
positions that fit in 32 bits, both of terms in the completions and of characters in the text of the dictionary. -/
structure ValidColl (C : Coll) : Prop where
  ne : C ≠ []
  docs : (C.map (·.1)).Nodup
  sorted : (C.map (·.2)).Pairwise (· < ·)
  nonempty : ∀ r ∈ C, r.2 ≠ []
  words : ∀ r ∈ C, ∀ t ∈ r.2, t ≠ [] ∧ IsText t ∧ space ∉ t
  short : ∀ r ∈ C, r.2.length < 64
  chars : ∀ r ∈ C, (r.2.map List.length).sum ≤ 128
  ids : ∀ r ∈ C, r.1 < 2 ^ 32 - 1
  size : (C.flatMap (·.2)).length < 2 ^ 30 - 1
  room : ((C.flatMap (·.2)).map (fun t => t.length + 2)).sum < 2 ^ 32

end AC.Spec
