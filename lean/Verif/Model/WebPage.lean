import Verif.Prelude
import Verif.Spec.Strings
/-!
# The web page, web/topkcomp.js

The function `formatResult`, which makes the HTML shown for a suggestion from its text and from what is typed in the input field. Strings of
JavaScript are lists of 16-bit code units.

Not modelled: the libraries `jquery` and `jquery.autocomplete` (not in the repository), which call this function and put what it returns into
the page; `lookupFilter`, which that library does not call when suggestions come from a server.
-/
namespace AC
namespace Page

/-- `\s` of a regular expression, and what `trim()` removes: white space and ends of lines (ECMA-262) -/
def isSpace (c : Nat) : Bool :=
  (9 ≤ c && c ≤ 13) || c == 32 || c == 0xa0 || c == 0x1680 || (0x2000 ≤ c && c ≤ 0x200a) || c == 0x2028 || c == 0x2029 || c == 0x202f ||
    c == 0x205f || c == 0x3000 || c == 0xfeff

/-- `s.trim()`, web/topkcomp.js:19 -/
def trim (s : Str) : Str := ((s.dropWhile isSpace).reverse.dropWhile isSpace).reverse

/-- `s.split(/\s+/)`: arguments are the rest, the current piece and whether the last code unit was a space -/
def splitLoop : Str → Str → Bool → List Str
  | [], cur, _ => [cur]
  | c :: r, cur, sep =>
      if isSpace c then (if sep then splitLoop r [] true else cur :: splitLoop r [] true)
      else splitLoop r (cur ++ [c]) false

/-- `split(/\s+/)`, web/topkcomp.js:19 -/
def split (s : Str) : List Str := splitLoop s [] false

/-- `join('|')`, web/topkcomp.js:19 -/
def join : List Str → Str
  | [] => []
  | [w] => w
  | w :: ws => w ++ 124 :: join ws

/-- regular expressions (ECMA-262) without quantifiers, assertions and classes; groups are numbered from 1 by their opening parentheses -/
inductive Re where
  | empty
  | char (c : Nat)
  | seq (a b : Re)
  | alt (a b : Re)
  | group (n : Nat) (a : Re)
  deriving DecidableEq

/-- a term before the first alternative -/
def Re.cons (t : Re) : Re → Re
  | .alt a b => .alt (.seq t a) b
  | a => .seq t a

/-- the grammar of patterns from the alternatives on, up to the end or a closing parenthesis: the expression, what is left, and the number of
groups so far. For patterns made of ordinary code units, `(`, `)` and `|`. A parenthesis that is not closed is a `SyntaxError`. -/
def alternatives : Nat → Str → Nat → M (Re × Str × Nat)
  | 0, _, _ => .error .diverge
  | _ + 1, [], n => .ok (.empty, [], n)
  | fuel + 1, c :: r, n =>
      if c = 41 then .ok (.empty, c :: r, n)
      else if c = 124 then do
        let (b, r, n) ← alternatives fuel r n
        .ok (.alt .empty b, r, n)
      else if c = 40 then do
        let (a, r, m) ← alternatives fuel r (n + 1)
        match r with
        | 41 :: r => do
            let (b, r, m) ← alternatives fuel r m
            .ok (.cons (.group (n + 1) a) b, r, m)
        | _ => .error .thrown
      else do
        let (b, r, n) ← alternatives fuel r n
        .ok (.cons (.char c) b, r, n)

/-- the code units with a meaning in patterns that is not modelled: `$ * + . ? [ \ ] ^ { }` -/
def isOperator (c : Nat) : Bool :=
  c == 36 || c == 42 || c == 43 || c == 46 || c == 63 || (91 ≤ c && c ≤ 94) || c == 123 || c == 125

/-- `new RegExp(p, …)`, web/topkcomp.js:22, for patterns without operators (`isOperator`). A closing parenthesis too many is a `SyntaxError`
as well. -/
def compile (p : Str) : M Re := do
  let (e, r, _) ← alternatives (p.length + 1) p 0
  if r = [] then .ok e else .error .thrown

/-- the matches of an expression at the beginning of `s`, in the order in which they are tried: what is left and the text of group 1
(`none`: undefined). `canon` is `Canonicalize` of ECMA-262 with the flag `i`. -/
def run (canon : Nat → Nat) : Re → Str → Option Str → List (Str × Option Str)
  | .empty, s, g => [(s, g)]
  | .char c, x :: s, g => if canon x = canon c then [(s, g)] else []
  | .char _, [], _ => []
  | .seq a b, s, g => (run canon a s g).flatMap fun m => run canon b m.1 m.2
  | .alt a b, s, g => run canon a s g ++ run canon b s g
  | .group n a, s, g => (run canon a s g).map fun m => (m.1, if n = 1 then some (s.take (s.length - m.1.length)) else m.2)

/-- `<strong>` -/
def openTag : Str := [60, 115, 116, 114, 111, 110, 103, 62]
/-- `</strong>` -/
def closeTag : Str := [60, 47, 115, 116, 114, 111, 110, 103, 62]

/-- `.replace(…, '<strong>$1<\/strong>')` with the flag `g`, web/topkcomp.js:22: from the left, at every place the first match. After a match
of nothing the next code unit is passed over. Every step but the last consumes a code unit. -/
def mark (canon : Nat → Nat) (e : Re) : Nat → Str → Str
  | 0, s => s
  | fuel + 1, s =>
      match (run canon e s none).head? with
      | some (s', g) =>
          openTag ++ g.getD [] ++ closeTag ++
            (if s'.length < s.length then mark canon e fuel s'
             else match s with
              | [] => []
              | c :: r => c :: mark canon e fuel r)
      | none =>
          match s with
          | [] => []
          | c :: r => c :: mark canon e fuel r

/-- `.replace(/x/g, y)` for a single code unit, web/topkcomp.js:23-26 -/
def subst (x : Nat) (y : Str) (s : Str) : Str := s.flatMap fun c => if c = x then y else [c]

/-- `&amp;` -/
def ampEntity : Str := [38, 97, 109, 112, 59]
/-- `&lt;` -/
def ltEntity : Str := [38, 108, 116, 59]
/-- `&gt;` -/
def gtEntity : Str := [38, 103, 116, 59]
/-- `&quot;` -/
def quotEntity : Str := [38, 113, 117, 111, 116, 59]

/-- web/topkcomp.js:23-26 -/
def escape (s : Str) : Str := subst 34 quotEntity (subst 62 gtEntity (subst 60 ltEntity (subst 38 ampEntity s)))

/-- `&lt;strong&gt;` -/
def openText : Str := [38, 108, 116, 59, 115, 116, 114, 111, 110, 103, 38, 103, 116, 59]
/-- `&lt;/strong&gt;` -/
def closeText : Str := [38, 108, 116, 59, 47, 115, 116, 114, 111, 110, 103, 38, 103, 116, 59]

/-- `.replace(/&lt;(\/?strong)&gt;/g, '<$1>')`, web/topkcomp.js:27 -/
def restore : Nat → Str → Str
  | _, [] => []
  | 0, s => s
  | fuel + 1, c :: r =>
      if openText.isPrefixOf (c :: r) then openTag ++ restore fuel ((c :: r).drop openText.length)
      else if closeText.isPrefixOf (c :: r) then closeTag ++ restore fuel ((c :: r).drop closeText.length)
      else c :: restore fuel r

/-- `formatResult(suggestion, currentValue)`, web/topkcomp.js:12-28, for the text `value` of the suggestion -/
def formatResult (canon : Nat → Nat) (value cur : Str) : M Str :=
  if cur = [] then .ok value
  else do
    let e ← compile ([40] ++ join (split (trim cur)) ++ [41])
    let s := escape (mark canon e (value.length + 1) value)
    .ok (restore s.length s)

end Page
end AC
