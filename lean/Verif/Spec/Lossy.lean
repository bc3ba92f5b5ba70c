import Verif.Spec.Actual
/-!
# What the queries return when the number of terms is a multiple of 17

The dictionary of the terms then loses its last 16 terms (C10). The notions of match that the queries implement are stated here on
collections.
-/
namespace AC.Spec

/-- `t` is one of the last `n` terms of the collection: it is a term, and fewer than `n` terms are greater -/
def AmongLast (C : Coll) (n : Nat) (t : Str) : Prop :=
  IsTerm C t ∧ ∀ G : List Str, G.Nodup → (∀ x ∈ G, IsTerm C x ∧ t < x) → G.length < n

/-- `t` is a term, but not one of the last 16 -/
def KeptTerm (C : Coll) (t : Str) : Prop := IsTerm C t ∧ ¬ AmongLast C 16 t

/-- the terms found for an incomplete term; the last 16 terms are in the range for the empty one only -/
def ReachesKept (C : Coll) (last x : Str) : Prop := Reaches C last x ∧ (last = [] ∨ ¬ AmongLast C 16 x)

/-- prefix match, with the terms that the dictionary finds -/
def PrefixKept (C : Coll) (complete : List Str) (last : Str) (c : List Str) : Prop :=
  (∀ t ∈ complete, KeptTerm C t) ∧ ∃ x, ReachesKept C last x ∧ (complete ++ [x]) <+: c

/-- the smallest of the terms found for an incomplete term -/
def FirstReachedKept (C : Coll) (last x : Str) : Prop :=
  IsTerm C x ∧ ReachesKept C last x ∧ ∀ y, IsTerm C y → ReachesKept C last y → ¬ y < x

/-- prefix match in the dictionary of completions; see `PrefixFound2` -/
def PrefixKept2 (C : Coll) (complete : List Str) (last : Str) (c : List Str) : Prop :=
  PrefixKept C complete last c ∧ (IsFirstCompletion C c → ∃ x, FirstReachedKept C last x ∧ c = complete ++ [x])

/-- conjunctive match: complete terms that are among the last 16 are ignored, as if the collection did not have them -/
def ConjKept (C : Coll) (complete : List Str) (last : Str) (c : List Str) : Prop :=
  (∀ t ∈ complete, KeptTerm C t → t ∈ c) ∧ ∃ x ∈ c, ReachesKept C last x

/-- collections of valid completions whose number of terms is a multiple of 17, for type 1 -/
structure Suits17 (C : Coll) : Prop where
  terms : ∃ n, NumTerms C n ∧ n % 17 = 0
  doc0 : ∃ t, IsTerm C t ∧ ∀ c, (0, c) ∈ C → t ∉ c

/-- the same for types 2, 3 and 4, which need also that the number of completions is not a multiple of 17 -/
structure Suits17b (C : Coll) : Prop extends Suits17 C where
  count : C.length % 17 ≠ 0

/-! ## The number of completions is a multiple of 17

The dictionary of the completions of types 2, 3 and 4 then loses its last 16 completions. -/

/-- `c` is one of the last `n` completions of the collection: it is a completion, and fewer than `n` completions are greater -/
def LastCompletion (C : Coll) (n : Nat) (c : List Str) : Prop :=
  (∃ d, (d, c) ∈ C) ∧ ∀ G : List (List Str), G.Nodup → (∀ x ∈ G, (∃ d, (d, x) ∈ C) ∧ c < x) → G.length < n

/-- prefix match in such a dictionary -/
def PrefixKeptC (C : Coll) (complete : List Str) (last : Str) (c : List Str) : Prop :=
  PrefixFound2 C complete last c ∧ ¬ LastCompletion C 16 c

/-- conjunctive search with type 2 loads the completion of the document `d`: some term completes the incomplete one, the completion has all the
complete terms (with a known one among them, otherwise it is a match), and fewer than `k` matching completions have smaller document ids -/
def Examined (C : Coll) (complete : List Str) (last : Str) (k d : Nat) (c : List Str) : Prop :=
  (d, c) ∈ C ∧ (∃ x, IsTerm C x ∧ Reaches C last x) ∧ (∀ t ∈ complete, IsTerm C t → t ∈ c) ∧ ((∃ t ∈ complete, IsTerm C t) ∨ ∃ x ∈ c, Reaches C last x) ∧
    ∀ G : Coll, G.Nodup → (∀ r ∈ G, r ∈ C ∧ ConjFound C complete last r.2 ∧ r.1 < d) → G.length < k

/-- collections of valid completions whose number is a multiple of 17, for types 3 and 4 -/
structure Suits17c (C : Coll) : Prop where
  terms : ∃ n, NumTerms C n ∧ n % 17 ≠ 0
  count : C.length % 17 = 0
  doc : ∃ r ∈ C, r.1 ≠ 0 ∧ ¬ LastCompletion C 16 r.2

/-- the same for type 2 -/
structure Suits17d (C : Coll) : Prop extends Suits17c C where
  doc0 : ∃ t, IsTerm C t ∧ ∀ c, (0, c) ∈ C → t ∉ c

/-! ## Both -/

/-- the completion is lost, or one of its terms is -/
def Gone (C : Coll) (c : List Str) : Prop := LastCompletion C 16 c ∨ ∃ t ∈ c, AmongLast C 16 t

/-- prefix match when both dictionaries have lost their last strings -/
def PrefixKeptB (C : Coll) (complete : List Str) (last : Str) (c : List Str) : Prop :=
  PrefixKept2 C complete last c ∧ ¬ LastCompletion C 16 c

/-- like `Examined`, with the terms that are kept -/
def ExaminedKept (C : Coll) (complete : List Str) (last : Str) (k d : Nat) (c : List Str) : Prop :=
  (d, c) ∈ C ∧ (∃ x, IsTerm C x ∧ ReachesKept C last x) ∧ (∀ t ∈ complete, KeptTerm C t → t ∈ c) ∧
    ((∃ t ∈ complete, KeptTerm C t) ∨ ∃ x ∈ c, ReachesKept C last x) ∧
    ∀ G : Coll, G.Nodup → (∀ r ∈ G, r ∈ C ∧ ConjKept C complete last r.2 ∧ r.1 < d) → G.length < k

/-- collections of valid completions whose numbers of terms and of completions are multiples of 17, for types 3 and 4 -/
structure Suits17e (C : Coll) : Prop where
  terms : ∃ n, NumTerms C n ∧ n % 17 = 0
  count : C.length % 17 = 0
  doc : ∃ r ∈ C, r.1 ≠ 0 ∧ ¬ LastCompletion C 16 r.2

/-- the same for type 2 -/
structure Suits17f (C : Coll) : Prop extends Suits17e C where
  doc0 : ∃ t, IsTerm C t ∧ ∀ c, (0, c) ∈ C → t ∉ c

end AC.Spec
