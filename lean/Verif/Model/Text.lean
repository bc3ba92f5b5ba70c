import Verif.Model.Preprocess
/-!
# Text files: what the scripts write and how the constructors read it

The scripts of test_data are written in Python; files are opened in text mode. Strings are sequences of bytes here: this is what the scripts do with
texts in ASCII. For others see Model/Unicode.lean. The C++ code reads with `std::ifstream` in the "C" locale.
-/
namespace AC

/-! ## `std::istream` -/

/-- `isspace` in the "C" locale -/
def isSpace (b : Nat) : Bool := b == 32 || (9 ≤ b && b ≤ 13)

def isDigit (b : Nat) : Bool := 48 ≤ b && b ≤ 57

/-- the number written with the decimal digits `ds` -/
def num (ds : Str) : Nat := ds.foldl (fun v b => 10 * v + (b - 48)) 0

/-- an open file: what has not been read, `eofbit` and `failbit` -/
structure Stream where
  rest : Str
  eof : Bool
  fail : Bool
  deriving DecidableEq

namespace Stream

/-- an opened file with contents `s` -/
def ofText (s : Str) : Stream := ⟨s, false, false⟩

/-- the constructor of `istream::sentry`, called by every `>>`: skips whitespace. In a stream that is not `good` nothing can be read. -/
def sentry (s : Stream) : Stream :=
  if s.eof || s.fail then { s with fail := true }
  else match s.rest.dropWhile isSpace with
    | [] => ⟨[], true, true⟩
    | b :: r => ⟨b :: r, false, false⟩

/-- the sign of a number -/
def sign : Str → Bool × Str
  | [] => (false, [])
  | b :: r => if b = 45 then (true, r) else if b = 43 then (false, r) else (false, b :: r)

/-- `s >> x` for `uint32_t x`, with the former value of `x`: unchanged if nothing can be read, 0 if there is no number, the largest value if
the number is too large; `failbit` is set in these cases. A negative number is taken modulo `2^32`. -/
def getU32 (old : Nat) (s : Stream) : Nat × Stream :=
  let s := s.sentry
  if s.fail then (old, s)
  else
    let (neg, r) := sign s.rest
    let ds := r.takeWhile isDigit
    let r := r.dropWhile isDigit
    if ds.isEmpty then (0, ⟨r, r.isEmpty, true⟩)
    else if num ds ≥ 2 ^ 32 then (2 ^ 32 - 1, ⟨r, r.isEmpty, true⟩)
    else (if neg then (2 ^ 32 - num ds) % 2 ^ 32 else num ds, ⟨r, r.isEmpty, false⟩)

/-- `s >> x` for `std::string x`, with the former value of `x` -/
def getWord (old : Str) (s : Stream) : Str × Stream :=
  let s := s.sentry
  if s.fail then (old, s)
  else
    let w := s.rest.takeWhile (fun b => !isSpace b)
    let r := s.rest.dropWhile (fun b => !isSpace b)
    (w, ⟨r, r.isEmpty, false⟩)

end Stream

/-! ## The files, as the constructors read them -/

/-- The strings of the file `.dict`, as read by include/fc_dictionary.hpp:31-57: headers are read into `header`, the others into `curr`, which
are exchanged with `prev`; `j` is the position of the string. (When the number of strings is a multiple of 17 the code reads 16 strings
less, which the model of the dictionary does not use either.) -/
def readWords : Nat → Nat → Str → Str → Str → Stream → List Str
  | 0, _, _, _, _, _ => []
  | n + 1, j, prev, curr, header, s =>
      if j % 17 = 0 then
        let (w, s) := s.getWord header
        w :: readWords n (j + 1) w curr prev s
      else
        let (w, s) := s.getWord curr
        w :: readWords n (j + 1) w prev header s

/-- `id_type x; input >> x; list.push_back(x);`, `n` times, include/inverted_index.hpp:45-49, include/blocked_inverted_index.hpp:63-66 and
include/compact_forward_index.hpp:32-37. When nothing can be read, an indeterminate value is used: a fault. -/
def readIds : Nat → Stream → M (Ids × Stream)
  | 0, s => .ok ([], s)
  | n + 1, s =>
      if s.sentry.fail then .error .oob
      else do
        let (x, s) := s.getU32 0
        let (l, s) ← readIds n s
        .ok (x :: l, s)

/-- the lists of the files `.inverted` and `.forward`, each with its length before it: include/inverted_index.hpp:35-49,
include/blocked_inverted_index.hpp:56-66, include/compact_forward_index.hpp:26-37 -/
def readLists : Nat → Stream → M (List Ids)
  | 0, _ => .ok []
  | n + 1, s => do
      let (len, s) := s.getU32 0
      let (l, s) ← readIds len s
      let ls ← readLists n s
      .ok (l :: ls)

/-- `while (!m_in.eof() and x != global::terminator) { m_in >> x; m_val.completion.push_back(x); }`, include/util_types.hpp:236-239 -/
def readTerms : Nat → Nat → Ids → Stream → M (Ids × Stream)
  | 0, _, _, _ => .error .diverge
  | fuel + 1, x, acc, s =>
      if s.eof || x == 0 then .ok (acc, s)
      else
        let (x, s) := s.getU32 x
        readTerms fuel x (acc ++ [x]) s

/-- `completion_iterator::read_next()`, include/util_types.hpp:232-240, with the former document id. Every iteration of the loop consumes a
character, unless the stream has failed. -/
def readNext (doc : Nat) (s : Stream) : M ((Nat × Ids) × Stream) := do
  let (doc, s) := s.getU32 doc
  let (c, s) ← readTerms (s.rest.length + 2) INVALID_TERM [] s
  .ok ((doc, c), s)

/-- `while (input) { … *it …; ++it; }`, include/completion_trie.hpp:43-79: the records, the first of which has been read -/
def readWhile : Nat → (Nat × Ids) → Stream → M (List (Nat × Ids))
  | 0, _, _ => .error .diverge
  | fuel + 1, r, s =>
      if s.fail then .ok []
      else do
        let (r', s) ← readNext r.1 s
        let rs ← readWhile fuel r' s
        .ok (r :: rs)

/-- all the records of the file `.mapped`, as read by include/completion_trie.hpp:35-79. (`doc_id` is indeterminate before the first record
is read; this value is only seen when nothing can be read.) -/
def readAll (text : Str) : M (List (Nat × Ids)) := do
  let (r, s) ← readNext 0 (.ofText text)
  readWhile (text.length + 1) r s

/-- `n` records, the first of which has been read -/
def readCount : Nat → (Nat × Ids) → Stream → M (List (Nat × Ids))
  | 0, _, _ => .ok []
  | n + 1, r, s => do
      let (r', s) ← readNext r.1 s
      let rs ← readCount n r' s
      .ok (r :: rs)

/-- the records of the file `.mapped`, as read by include/integer_fc_dictionary.hpp:33-60 -/
def readSome (n : Nat) (text : Str) : M (List (Nat × Ids)) := do
  let (r, s) ← readNext 0 (.ofText text)
  readCount n r s

/-- `parameters`, data members: include/parameters.hpp:54-60 -/
structure Params where
  numTerms : Nat
  maxLen : Nat
  numCompl : Nat
  univ : Nat
  levels : Nat
  nodes : List Nat
  deriving DecidableEq

/-- `for (; i != num_levels and input; ++i) input >> nodes_per_level[i];`, include/parameters.hpp:47: the vector and how many of its elements
are not read -/
def readNodes : Nat → Stream → List Nat × Nat
  | 0, _ => ([], 0)
  | n + 1, s =>
      if s.fail then (List.replicate (n + 1) 0, n + 1)
      else
        let (x, s) := s.getU32 0
        let (l, m) := readNodes n s
        (x :: l, m)

/-- `parameters::load()`, include/parameters.hpp:18-52. `universe` is not initialized by the constructor: `junk` is its value. The assertions
are compiled out. -/
def Params.load (junk : Nat) (text : Str) : M Params :=
  let (numTerms, s) := (Stream.ofText text).getU32 0
  let (maxLen, s) := s.getU32 0
  let (numCompl, s) := s.getU32 0
  let (univ, s) := s.getU32 junk
  let (levels, s) := s.getU32 0
  if maxLen > MAX_CHARS then .error .thrown
  else if levels > MAX_TERMS then .error .thrown
  else
    let (nodes, left) := readNodes levels s
    if left ≠ 0 then .error .thrown else .ok ⟨numTerms, maxLen, numCompl, univ, levels, nodes⟩

/-- the contents of the files of a collection -/
structure Texts where
  dict : Str
  mapped : Str
  stats : Str
  inverted : Str
  forward : Str
  deriving DecidableEq

/-- What the constructors of the indexes read. The terminators at the ends of the completions are left out. (The readers are in the classes
that need them; not every type reads every file.) -/
def Texts.read (T : Texts) (P : Params) : M Files := do
  let mapped ← readAll T.mapped
  let inverted ← readLists P.numTerms (.ofText T.inverted)
  let forward ← readLists P.univ (.ofText T.forward)
  .ok ⟨readWords P.numTerms 0 [] [] [] (.ofText T.dict), mapped.map (fun r => (r.1, r.2.dropLast)), inverted, forward, P.univ, P.levels, P.maxLen⟩

/-! ## The files, as the scripts write them -/

namespace Pre
open Spec (Coll)

/-- universal newlines: `\n`, `\r\n` and `\r` all end a line; `cr` says that the character before is `\r` -/
def newlines : Bool → Str → Str
  | _, [] => []
  | cr, b :: r => if b = 13 then 10 :: newlines true r else if cr && b == 10 then newlines false r else b :: newlines false r

def linesAux : Str → Str → List Str
  | [], cur => if cur.isEmpty then [] else [cur]
  | b :: r, cur => if b = 10 then cur :: linesAux r [] else linesAux r (cur ++ [b])

/-- the lines of a file opened in text mode: `for line in f: line.rstrip('\n')` -/
def lines (text : Str) : List Str := linesAux (newlines false text) []

/-- the ASCII characters at which `str.split()` splits -/
def isBlank (b : Nat) : Bool := b == 32 || (9 ≤ b && b ≤ 13) || (28 ≤ b && b ≤ 31)

/-- `line.split()` -/
def splitAux : Str → Str → List Str
  | [], cur => if cur.isEmpty then [] else [cur]
  | b :: r, cur => if isBlank b then (if cur.isEmpty then splitAux r [] else cur :: splitAux r []) else splitAux r (cur ++ [b])

def split (line : Str) : List Str := splitAux line []

/-- `int(x)`, for decimal digits; other texts are rejected here (Python takes some more, such as signs) -/
def int? (x : Str) : Option Nat := if !x.isEmpty && x.all isDigit then some (num x) else none

/-- a line of the collection: the text of the document id, its value and the terms. A line without words is an error: `x[0]` raises. -/
def parseLine (line : Str) : Option (Str × Nat × List Str) :=
  match split line with
  | [] => none
  | x :: ts => (int? x).map (fun d => (x, d, ts))

/-- the lines of the input file, test_data/extract_dict.py:9-11, test_data/map_dataset.py:21-23, test_data/build_inverted_and_forward.py:31-35 -/
def parse (text : Str) : Option (List (Str × Nat × List Str)) := (lines text).mapM parseLine

/-- the collection that the lines contain -/
def collOf (L : List (Str × Nat × List Str)) : Coll := L.map (·.2)

/-- `str(n)` -/
def decF : Nat → Nat → Str
  | 0, _ => []
  | f + 1, n => if n < 10 then [48 + n] else decF f (n / 10) ++ [48 + n % 10]

def dec (n : Nat) : Str := decF (n + 1) n

/-- `" ".join(s)` -/
def join : List Str → Str
  | [] => []
  | [w] => w
  | w :: w' :: ws => w ++ 32 :: join (w' :: ws)

/-- the file `.dict`, test_data/extract_dict.py:22-24 -/
def dictText (terms : List Str) : Str := terms.flatMap (· ++ [10])

/-- the file `.mapped`, test_data/map_dataset.py:40-42: the document id is copied -/
def mappedText (terms : List Str) (L : List (Str × Nat × List Str)) : Str :=
  L.flatMap (fun l => join (l.1 :: (l.2.2.map (fun t => dec (tokenId terms t))) ++ [dec 0]) ++ [10])

/-- one turn of the loop of test_data/build_stats.py:26-31: `nodes_per_level` as a list of keys with values -/
def bump (l : Nat) : List (Nat × Nat) → List (Nat × Nat)
  | [] => [(l, 1)]
  | e :: es => if e.1 = l then (e.1, e.2 + 1) :: es else e :: bump l es

/-- the length of the common beginning, test_data/build_stats.py:22-24 -/
def common : List Str → List Str → Nat
  | a :: as, b :: bs => if a = b then common as bs + 1 else 0
  | _, _ => 0

/-- the loop of test_data/build_stats.py:13-36 for `nodes_per_level`, on the words of the lines of `.mapped` without the document ids -/
def countNodes : List (List Str) → List Str → List (Nat × Nat) → List (Nat × Nat)
  | [], _, m => m
  | q :: qs, prev, m => countNodes qs q ((List.range' (common q prev) (q.length - common q prev)).foldl (fun m l => bump l m) m)

/-- `sorted(nodes_per_level.items(), key = lambda kv: kv[0])` -/
def insertKey (e : Nat × Nat) : List (Nat × Nat) → List (Nat × Nat)
  | [] => [e]
  | f :: fs => if e.1 ≤ f.1 then e :: f :: fs else f :: insertKey e fs

def sortKeys : List (Nat × Nat) → List (Nat × Nat)
  | [] => []
  | e :: es => insertKey e (sortKeys es)

/-- `universe`, test_data/build_stats.py:11-18, from the first words of the lines of `.mapped` -/
def maxDoc (ds : List Nat) : Nat := ds.foldl (fun m d => if d > m then d else m) 0

/-- the file `.mapped.stats`: test_data/map_dataset.py:49-50, then test_data/build_stats.py:43-47, which reads the file `.mapped` -/
def statsText (terms : List Str) (maxLen : Nat) (mapped : Str) : Option Str := do
  let L ← parse mapped
  let nodes := countNodes (L.map (·.2.2)) [] []
  some ([terms.length, maxLen, L.length, maxDoc (L.map (·.2.1)) + 1, nodes.length].flatMap (fun n => dec n ++ [10])
    ++ (sortKeys nodes).flatMap (fun e => dec e.2 ++ [10]))

/-- a line of the files `.inverted` and `.forward`, test_data/build_inverted_and_forward.py:62-73 -/
def listText (l : List Nat) : Str := dec l.length ++ 32 :: (join (l.map dec) ++ [10])

/-- test_data/preprocess.sh, except the queries of the benchmarks, from the lines of the input file and `max_string_len` on: the contents of the files.
The scripts that use the dictionary read it from the file `.dict`. (build_inverted_and_forward.py also reads two numbers of the file `.mapped.stats`;
here they are used directly.) -/
def prepareLines (L : List (Str × Nat × List Str)) (maxLen : Nat) : Option Texts := do
  let terms := extractDict (collOf L)
  let dict := dictText terms
  let tokens := lines dict
  let mapped := mappedText tokens L
  let stats ← statsText tokens maxLen mapped
  let (inverted, forward) := invertedAndForward tokens (univOf (collOf L)) (collOf L)
  some ⟨dict, mapped, stats, inverted.flatMap listText, forward.flatMap listText⟩

/-- All of test_data/preprocess.sh, except the queries of the benchmarks: the contents of the files from the contents of the input file; `none`
when a script raises an exception. -/
def prepare (text : Str) : Option Texts := do
  let L ← parse text
  prepareLines L (maxStringLen (collOf L))

end Pre
end AC
