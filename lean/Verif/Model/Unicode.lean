import Verif.Model.Deploy
/-!
# The scripts on texts in UTF-8

In Python 3 a string is a sequence of code points. The scripts of test_data open files in text mode; the encoding is taken to be UTF-8 (it depends on the
locale). Here a string of Python is a list of code points, the contents of a file a list of bytes; the functions of Model/Preprocess.lean and
Model/Text.lean work on lists of numbers and serve for both. `Pre.parse` and `Pre.prepare` describe the scripts on ASCII texts.
-/
namespace AC.Py
open Spec (Coll)

/-- a byte that continues a character -/
def isCont (b : Nat) : Bool := 128 ≤ b && b < 192

/-- the encoding of a code point that `write` uses -/
def encodeChar (c : Nat) : Str :=
  if c < 0x80 then [c]
  else if c < 0x800 then [0xc0 + c / 64, 0x80 + c % 64]
  else if c < 0x10000 then [0xe0 + c / 4096, 0x80 + c / 64 % 64, 0x80 + c % 64]
  else [0xf0 + c / 262144, 0x80 + c / 4096 % 64, 0x80 + c / 64 % 64, 0x80 + c % 64]

/-- `f.write(s)`: the bytes -/
def encode (s : Str) : Str := s.flatMap encodeChar

/-- a character of two bytes, the first of which has been read -/
def char2 (a : Nat) : Str → Option (Nat × Str)
  | b :: r =>
      let v := (a - 0xc0) * 64 + (b - 0x80)
      if isCont b && 0x80 ≤ v then some (v, r) else none
  | _ => none

/-- a character of three bytes; surrogates are not characters -/
def char3 (a : Nat) : Str → Option (Nat × Str)
  | b :: c :: r =>
      let v := (a - 0xe0) * 4096 + (b - 0x80) * 64 + (c - 0x80)
      if isCont b && isCont c && 0x800 ≤ v && !(0xd800 ≤ v && v < 0xe000) then some (v, r) else none
  | _ => none

/-- a character of four bytes -/
def char4 (a : Nat) : Str → Option (Nat × Str)
  | b :: c :: d :: r =>
      let v := (a - 0xf0) * 262144 + (b - 0x80) * 4096 + (c - 0x80) * 64 + (d - 0x80)
      if isCont b && isCont c && isCont d && 0x10000 ≤ v && v < 0x110000 then some (v, r) else none
  | _ => none

/-- the first character of a text and what follows; `none` when the bytes are not a character -/
def char? : Str → Option (Nat × Str)
  | [] => none
  | a :: r =>
      if a < 0x80 then some (a, r) else if a < 0xc0 then none else if a < 0xe0 then char2 a r else if a < 0xf0 then char3 a r else char4 a r

/-- the decoder of the codec `utf-8`, with the number of characters that can follow; `none` stands for `UnicodeDecodeError` -/
def decodeF : Nat → Str → Option Str
  | _, [] => some []
  | 0, _ :: _ => none
  | f + 1, b :: r => do
      let (c, r) ← char? (b :: r)
      let s ← decodeF f r
      some (c :: s)

/-- what is read from a file with these bytes -/
def decode (bytes : Str) : Option Str := decodeF bytes.length bytes

/-- `str.isspace()` of a character: where `str.split()` splits -/
def isBlank (c : Nat) : Bool :=
  Pre.isBlank c || c == 0x85 || c == 0xa0 || c == 0x1680 || (0x2000 ≤ c && c ≤ 0x200a) || c == 0x2028 || c == 0x2029 || c == 0x202f || c == 0x205f || c == 0x3000

/-- `line.split()` -/
def splitAux : Str → Str → List Str
  | [], cur => if cur.isEmpty then [] else [cur]
  | c :: r, cur => if isBlank c then (if cur.isEmpty then splitAux r [] else cur :: splitAux r []) else splitAux r (cur ++ [c])

def split (line : Str) : List Str := splitAux line []

/-- a line of the collection, see `Pre.parseLine`. (Python also takes digits outside of ASCII for numbers; here the line is rejected.) -/
def parseLine (line : Str) : Option (Str × Nat × List Str) :=
  match split line with
  | [] => none
  | x :: ts => (Pre.int? x).map (fun d => (x, d, ts))

/-- the lines of the input file, test_data/extract_dict.py:9-11, test_data/map_dataset.py:21-23, test_data/build_inverted_and_forward.py:31-35 -/
def parse (text : Str) : Option (List (Str × Nat × List Str)) := (Pre.lines text).mapM parseLine

/-- All of test_data/preprocess.sh, except the queries of the benchmarks, on a text in UTF-8: the bytes of the files from the bytes of the input file.
`max_string_len`, test_data/map_dataset.py:31, is in characters. (The file `.dict` is read by the scripts as it was written, cf. `Pre.prepareLines`.) -/
def prepare (bytes : Str) : Option Texts := do
  let text ← decode bytes
  let L ← parse text
  let T ← Pre.prepareLines L (Pre.maxStringLen (Pre.collOf L))
  some ⟨encode T.dict, encode T.mapped, encode T.stats, encode T.inverted, encode T.forward⟩

/-- the index of a text in UTF-8 -/
def indexOf {α : Type} (build : Files → M α) (junk : Nat) (bytes : Str) : M α := indexOfTexts build junk (prepare bytes)

/-- the scripts and the program `build`, src/build.cpp:9-29, for a text in UTF-8 -/
def buildProgram {α : Type} (build : Files → M α) (print : α → M (List Nat)) (visit : {σ : Type} → Visitor σ → α → σ → M (α × σ)) (junk : Nat)
    (bytes : Str) : M (List Nat × List Nat) := buildProgramOf build print visit junk (prepare bytes)

end AC.Py
