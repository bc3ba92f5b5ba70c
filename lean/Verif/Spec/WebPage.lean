import Verif.Prelude
import Verif.Spec.Strings
/-!
# What a fragment of HTML shows, and words typed

Independent of the model.
-/
namespace AC
namespace Spec

/-- The code units a fragment of HTML shows, each with whether it is in bold. Only the tags `<strong>` and `</strong>` and the references
`&amp;`, `&lt;`, `&gt;` and `&quot;` are understood: a fragment with anything else after a `<` or a `&` has no meaning here. -/
def shows : Bool → Str → Nat → Option (List (Nat × Bool))
  | _, _, 0 => some []
  | _, [], _ => some []
  | b, c :: s, n + 1 =>
      if c = 60 then
        match s with
        | 115 :: 116 :: 114 :: 111 :: 110 :: 103 :: 62 :: r => shows true r n
        | 47 :: 115 :: 116 :: 114 :: 111 :: 110 :: 103 :: 62 :: r => shows false r n
        | _ => none
      else if c = 38 then
        match s with
        | 97 :: 109 :: 112 :: 59 :: r => (shows b r n).map ((38, b) :: ·)
        | 108 :: 116 :: 59 :: r => (shows b r n).map ((60, b) :: ·)
        | 103 :: 116 :: 59 :: r => (shows b r n).map ((62, b) :: ·)
        | 113 :: 117 :: 111 :: 116 :: 59 :: r => (shows b r n).map ((34, b) :: ·)
        | _ => none
      else (shows b s n).map ((c, b) :: ·)
termination_by structural _ _ n => n

/-- what the fragment `s` shows -/
def displayed (s : Str) : Option (List (Nat × Bool)) := shows false s s.length

/-- white space and ends of lines of ECMAScript: tab, line feed, line tabulation, form feed, carriage return, space, no-break space, the other
characters of the category Zs (U+1680, U+2000 to U+200A, U+202F, U+205F, U+3000), U+2028, U+2029 and U+FEFF -/
def whiteSpace : List Nat :=
  [9, 10, 11, 12, 13, 32, 0xa0, 0x1680, 0x2000, 0x2001, 0x2002, 0x2003, 0x2004, 0x2005, 0x2006, 0x2007, 0x2008, 0x2009, 0x200a, 0x2028, 0x2029,
    0x202f, 0x205f, 0x3000, 0xfeff]

/-- `w` is one of the words of `s`: a longest piece without white space -/
def IsWord (s w : Str) : Prop :=
  w ≠ [] ∧ (∀ c ∈ w, c ∉ whiteSpace) ∧ ∃ a b, s = a ++ w ++ b ∧ (∀ c ∈ a.getLast?, c ∈ whiteSpace) ∧ (∀ c ∈ b.head?, c ∈ whiteSpace)

/-- `w` occurs in `v` at position `i`, up to the variants of code units identified by `canon` -/
def OccursAt (canon : Nat → Nat) (w v : Str) (i : Nat) : Prop :=
  i + w.length ≤ v.length ∧ ((v.drop i).take w.length).map canon = w.map canon

/-- a code unit with a meaning of its own in regular expressions: `$ ( ) * + . ? [ \ ] ^ { | }` -/
def special (c : Nat) : Bool := [36, 40, 41, 42, 43, 46, 63, 91, 92, 93, 94, 123, 124, 125].contains c

/-- The HTML `r` made for the suggestion `value` when `cur` is typed: it shows the text of the suggestion, every occurrence of a word typed is
in bold at least in part, and what is in bold belongs to an occurrence of a word typed that is in bold as a whole. -/
def Highlights (canon : Nat → Nat) (value cur : Str) (r : M Str) : Prop :=
  ∃ html out, r = .ok html ∧ displayed html = some out ∧ out.map (·.1) = value ∧
    (∀ w, IsWord cur w → ∀ i, OccursAt canon w value i → ∃ j, i ≤ j ∧ j < i + w.length ∧ (out.map (·.2))[j]? = some true) ∧
    (∀ j, (out.map (·.2))[j]? = some true → ∃ w, IsWord cur w ∧ ∃ i, i ≤ j ∧ j < i + w.length ∧ OccursAt canon w value i ∧
      ∀ m, i ≤ m → m < i + w.length → (out.map (·.2))[m]? = some true)

end Spec
end AC
