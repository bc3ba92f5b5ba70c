import Verif.Model.Text
/-!
# Words and numbers in a text
-/
namespace AC.Spec

/-- `ws` are the words of `s`: what is between blanks -/
inductive Words : Str → List Str → Prop
  | none {gap : Str} : (∀ b ∈ gap, Pre.isBlank b = true) → Words gap []
  | last {gap w : Str} : (∀ b ∈ gap, Pre.isBlank b = true) → w ≠ [] → (∀ b ∈ w, Pre.isBlank b = false) → Words (gap ++ w) [w]
  | next {gap w s : Str} {b : Nat} {ws : List Str} : (∀ b ∈ gap, Pre.isBlank b = true) → w ≠ [] → (∀ b ∈ w, Pre.isBlank b = false) →
      Pre.isBlank b = true → Words s ws → Words (gap ++ w ++ b :: s) (w :: ws)

/-- a numeral that fits in 32 bits and the whitespace that follows it -/
structure Numeral (e : Str × Str) : Prop where
  ne : e.1 ≠ []
  digits : e.1.all isDigit = true
  small : num e.1 < 2 ^ 32
  sep : e.2 ≠ []
  blank : e.2.all isSpace = true

/-- the text of some numerals -/
def textOfNumerals (es : List (Str × Str)) : Str := es.flatMap (fun e => e.1 ++ e.2)

end AC.Spec
