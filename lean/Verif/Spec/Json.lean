import Verif.Spec.Strings
/-!
# Specification: JSON texts (RFC 8259)

A decoder of JSON texts given as bytes; `none` for what is not JSON. Bytes from 128 in strings are passed on (whether they are UTF-8 is not
checked), and escaped code points are encoded as UTF-8, each on its own (surrogate pairs are not combined).
-/
namespace AC.Spec

/-- a JSON value; numbers and literals as they are written -/
inductive Json where
  | str (s : Str)
  | num (s : Str)
  | lit (s : Str)
  | arr (l : List Json)
  | obj (l : List (Str × Json))

namespace Json

/-- white space -/
def ws : Str → Str
  | [] => []
  | c :: s => if c = 32 ∨ c = 9 ∨ c = 10 ∨ c = 13 then ws s else c :: s

/-- the value of a hexadecimal digit -/
def hexVal (c : Nat) : Option Nat :=
  if 48 ≤ c ∧ c ≤ 57 then some (c - 48) else if 97 ≤ c ∧ c ≤ 102 then some (c - 87) else if 65 ≤ c ∧ c ≤ 70 then some (c - 55) else none

/-- a code point below 65536 in UTF-8 -/
def utf8 (u : Nat) : Str :=
  if u < 128 then [u] else if u < 2048 then [192 + u / 64, 128 + u % 64] else [224 + u / 4096, 128 + u / 64 % 64, 128 + u % 64]

/-- four hexadecimal digits -/
def hex (a b c d : Nat) : Option Nat := do
  let a ← hexVal a
  let b ← hexVal b
  let c ← hexVal c
  let d ← hexVal d
  return 4096 * a + 256 * b + 16 * c + d

/-- the character escaped by a letter -/
def letter (c : Nat) : Option Nat :=
  if c = 34 ∨ c = 92 ∨ c = 47 then some c
  else if c = 98 then some 8 else if c = 102 then some 12 else if c = 110 then some 10 else if c = 114 then some 13
  else if c = 116 then some 9 else none

/-- the rest of a string after its opening quote: its contents and what follows the closing quote -/
def string : Str → Option (Str × Str)
  | [] => none
  | 34 :: s => some ([], s)
  | 92 :: 117 :: a :: b :: c :: d :: s => do
      let u ← hex a b c d
      let (t, r) ← string s
      return (utf8 u ++ t, r)
  | 92 :: e :: s => do
      let v ← letter e
      let (t, r) ← string s
      return (v :: t, r)
  | c :: s => if c < 32 ∨ c = 92 then none else do
      let (t, r) ← string s
      return (c :: t, r)

def isDigit (c : Nat) : Bool := 48 ≤ c && c ≤ 57

/-- at least one digit -/
def digits1 (s : Str) : Option (Str × Str) :=
  if (s.takeWhile isDigit).isEmpty then none else some (s.takeWhile isDigit, s.dropWhile isDigit)

/-- the digits before the point: no leading zero -/
def intPart (s : Str) : Option (Str × Str) :=
  match s with
  | 48 :: r => some ([48], r)
  | _ => digits1 s

/-- the digits after the point, if any -/
def fracPart (s : Str) : Option (Str × Str) :=
  match s with
  | 46 :: r => (digits1 r).map (fun p => (46 :: p.1, p.2))
  | _ => some ([], s)

/-- the exponent, if any -/
def expPart (s : Str) : Option (Str × Str) :=
  match s with
  | e :: r =>
      if e = 101 ∨ e = 69 then
        match r with
        | c :: r' => if c = 43 ∨ c = 45 then (digits1 r').map (fun p => (e :: c :: p.1, p.2)) else (digits1 r).map (fun p => (e :: p.1, p.2))
        | [] => none
      else some ([], s)
  | [] => some ([], s)

/-- a number without sign -/
def unsigned (s : Str) : Option (Str × Str) := do
  let (a, s) ← intPart s
  let (b, s) ← fracPart s
  let (c, s) ← expPart s
  return (a ++ b ++ c, s)

/-- a number -/
def number (s : Str) : Option (Str × Str) :=
  match s with
  | 45 :: r => (unsigned r).map (fun p => (45 :: p.1, p.2))
  | _ => unsigned s

/-- `true`, `false` or `null` -/
def literal (s : Str) : Option (Str × Str) :=
  if [116, 114, 117, 101] <+: s then some ([116, 114, 117, 101], s.drop 4)
  else if [102, 97, 108, 115, 101] <+: s then some ([102, 97, 108, 115, 101], s.drop 5)
  else if [110, 117, 108, 108] <+: s then some ([110, 117, 108, 108], s.drop 4)
  else none

/-- a string, a number or a literal -/
def scalar (s : Str) : Option (Json × Str) :=
  match s with
  | 34 :: r => (string r).map (fun p => (.str p.1, p.2))
  | _ =>
      match number s with
      | some p => some (.num p.1, p.2)
      | none => (literal s).map (fun p => (.lit p.1, p.2))

mutual
/-- a value: the value and what follows; the first argument bounds the length of lists and the depth -/
def value : Nat → Str → Option (Json × Str)
  | 0, _ => none
  | n + 1, s =>
      match ws s with
      | 91 :: r =>
          match ws r with
          | 93 :: r' => some (.arr [], r')
          | _ => (elements n r).map (fun p => (.arr p.1, p.2))
      | 123 :: r =>
          match ws r with
          | 125 :: r' => some (.obj [], r')
          | _ => (members n r).map (fun p => (.obj p.1, p.2))
      | r => scalar r
/-- the elements of an array that has some, and what follows the closing bracket -/
def elements : Nat → Str → Option (List Json × Str)
  | 0, _ => none
  | n + 1, s =>
      match value n s with
      | none => none
      | some (v, r) =>
          match ws r with
          | 44 :: r' => (elements n r').map (fun p => (v :: p.1, p.2))
          | 93 :: r' => some ([v], r')
          | _ => none
/-- the members of an object that has some, and what follows the closing brace -/
def members : Nat → Str → Option (List (Str × Json) × Str)
  | 0, _ => none
  | n + 1, s =>
      match ws s with
      | 34 :: r =>
          match string r with
          | none => none
          | some (key, r) =>
              match ws r with
              | 58 :: r =>
                  match value n r with
                  | none => none
                  | some (v, r) =>
                      match ws r with
                      | 44 :: r' => (members n r').map (fun p => ((key, v) :: p.1, p.2))
                      | 125 :: r' => some ([(key, v)], r')
                      | _ => none
              | _ => none
      | _ => none
end

/-- the value of a JSON text -/
def decode (s : Str) : Option Json :=
  match value (s.length + 1) s with
  | some (v, r) => if ws r = [] then some v else none
  | none => none

end Json
end AC.Spec
