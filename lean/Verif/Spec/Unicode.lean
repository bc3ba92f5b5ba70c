import Verif.Model.Unicode
/-!
# Texts
-/
namespace AC.Spec

/-- the code points of a text -/
def codes (s : List Char) : Str := s.map Char.toNat

/-- the bytes of a text in UTF-8 -/
def bytes (s : List Char) : Str := s.flatMap (fun c => (String.utf8EncodeChar c).map UInt8.toNat)

/-- a line of characters and its words: what is between blanks -/
inductive WordsU (blank : Char → Bool) : List Char → List (List Char) → Prop
  | none {gap : List Char} : (∀ b ∈ gap, blank b = true) → WordsU blank gap []
  | last {gap w : List Char} : (∀ b ∈ gap, blank b = true) → w ≠ [] → (∀ b ∈ w, blank b = false) → WordsU blank (gap ++ w) [w]
  | next {gap w s : List Char} {b : Char} {ws : List (List Char)} : (∀ b ∈ gap, blank b = true) → w ≠ [] → (∀ b ∈ w, blank b = false) →
      blank b = true → WordsU blank s ws → WordsU blank (gap ++ w ++ b :: s) (w :: ws)

/-- the characters that Unicode calls white space, and the separators U+001C to U+001F -/
def isBlankChar (c : Char) : Bool :=
  c ∈ ['\t', '\n', '\x0b', '\x0c', '\r', '\x1c', '\x1d', '\x1e', '\x1f', ' ', '\u0085', '\u00a0', '\u1680', '\u2000',
    '\u2001', '\u2002', '\u2003', '\u2004', '\u2005', '\u2006', '\u2007', '\u2008', '\u2009', '\u200a', '\u2028', '\u2029',
    '\u202f', '\u205f', '\u3000']

/-- a text by lines, each with its numeral and its terms, and however they are separated -/
structure Layout (L : List (List Char × List Char × List (List Char))) : Prop where
  words : ∀ l ∈ L, WordsU isBlankChar l.1 (l.2.1 :: l.2.2)
  numeral : ∀ l ∈ L, l.2.1.all Char.isDigit = true
  line : ∀ l ∈ L, '\n' ∉ l.1 ∧ '\r' ∉ l.1

/-- the text -/
def Layout.text (L : List (List Char × List Char × List (List Char))) : List Char := L.flatMap (fun l => l.1 ++ ['\n'])

/-- the collection: the bytes of the terms -/
def Layout.coll (L : List (List Char × List Char × List (List Char))) : Coll := L.map (fun l => (num (codes l.2.1), l.2.2.map bytes))

/-- all the conditions of a valid collection, except those on the terms: their bytes and their lengths -/
structure ValidShape (C : Coll) : Prop where
  ne : C ≠ []
  docs : (C.map (·.1)).Nodup
  sorted : (C.map (·.2)).Pairwise (· < ·)
  nonempty : ∀ r ∈ C, r.2 ≠ []
  short : ∀ r ∈ C, r.2.length < 64
  ids : ∀ r ∈ C, r.1 < 2 ^ 32 - 1
  size : (C.flatMap (·.2)).length < 2 ^ 30 - 1

end AC.Spec
