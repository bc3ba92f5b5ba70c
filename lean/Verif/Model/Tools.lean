import Verif.Model.Float32
import Verif.Model.Text
/-!
# The programs around the indexes: queries of the benchmarks, and the scripts that choose them
-/
namespace AC

/-- `std::getline(is, line)`: `none` if it fails -/
def Stream.getLine (s : Stream) : Option (Str × Stream) :=
  if s.eof || s.fail || s.rest.isEmpty then none
  else
    let w := s.rest.takeWhile (· != 10)
    match s.rest.dropWhile (· != 10) with
    | [] => some (w, ⟨[], true, false⟩)
    | _ :: r => some (w, ⟨r, false, false⟩)

namespace Bench

/-- `while (size > 0 and query[size] != ' ') --size;`, benchmark/benchmark_common.hpp:25 -/
def lastSpace (q : Str) : Nat → M Nat
  | 0 => .ok 0
  | n + 1 => do
      let b ← rd q (n + 1)
      if b != 32 then lastSpace q n else .ok (n + 1)

/-- benchmark/benchmark_common.hpp:24-29, `percentage` being `p * 2^-149`. For an empty line `query.size() - 1` is the largest number, and
`query[size]` is outside of the string. The sum is one of `float` numbers; `pop_back` is called while the query is longer than `end`. -/
def cut (p : Nat) (q : Str) : M Str :=
  if q.isEmpty then .error .oob
  else do
    let size ← lastSpace q (q.length - 1)
    let lastTokenSize := q.length - size
    let c := F32.ceil (F32.mul (F32.ofNat lastTokenSize) p)
    let stop := F32.round (F32.round (F32.round (F32.ofNat size + c) + 1) + 1)
    .ok (q.take stop)

/-- `load_queries(queries, max_num_queries, percentage, is)`, benchmark/benchmark_common.hpp:17-34 -/
def loadQueries (p : Nat) : Nat → Stream → M (List Str)
  | 0, _ => .ok []
  | n + 1, s =>
      match s.getLine with
      | none => .ok []
      | some (line, s) => do
          let q ← cut p line
          let qs ← loadQueries p n s
          .ok (q :: qs)

end Bench

namespace Pre

/-! ## test_data/partition_queries_by_length.py -/

/-- `' '.join(x[1:l+1])`, test_data/partition_queries_by_length.py:20-22, of the words `x` of a line (`l = len(x) - 1`); the newline that the script appends here
is written in `partition` -/
def queryOf (line : Str) : Str := join ((split line).drop 1)

/-- Where a line of `m` words goes, test_data/partition_queries_by_length.py:23-26: the position in the list `strings`, of six elements, or 6
for `all_others_strings`. Python takes the indices -1 and -2 from the end of the list. -/
def shard (m : Nat) : Nat :=
  if m ≥ 8 then 6
  else if m = 0 then 4
  else if m = 1 then 5
  else m - 2

/-- The files of queries, in the order of the lengths: test_data/partition_queries_by_length.py:18-40. `shuffle i` is what `random.shuffle` does to the
list of the file `i`. -/
def partition (shuffle : Nat → List Str → List Str) (n : Nat) (text : Str) : List Str :=
  (List.range 7).map (fun i =>
    let strings := ((lines text).filter (fun l => shard (split l).length == i)).map queryOf
    ((shuffle i strings).take n).flatMap (· ++ [10]))

/-! ## test_data/filter_dataset.py

This script needs Python 2 (it imports `sets`): lines end with `\n` only, and `split` takes the whitespace of the "C" locale. -/

/-- `for line in f`, each line with its newline -/
def rawLinesAux : Str → Str → List Str
  | [], cur => if cur.isEmpty then [] else [cur]
  | b :: r, cur => if b = 10 then (cur ++ [10]) :: rawLinesAux r [] else rawLinesAux r (cur ++ [b])

def rawLines (text : Str) : List Str := rawLinesAux text []

/-- `line.rstrip('\n')` -/
def rstrip (line : Str) : Str := (line.reverse.dropWhile (· == 10)).reverse

/-- `split()` of Python 2 -/
def split2Aux : Str → Str → List Str
  | [], cur => if cur.isEmpty then [] else [cur]
  | b :: r, cur => if isSpace b then (if cur.isEmpty then split2Aux r [] else cur :: split2Aux r []) else split2Aux r (cur ++ [b])

/-- `' '.join(x[1:len(x)])`, test_data/filter_dataset.py:24-25 -/
def queryOf2 (line : Str) : Str := join ((split2Aux (rstrip line) []).drop 1)

/-- the strings to filter, test_data/filter_dataset.py:7-17 -/
def toFilter (files : List Str) : List Str := files.flatMap (fun f => (rawLines f).map rstrip)

/-- the file `.filtered`, test_data/filter_dataset.py:19-31 -/
def filterDataset (files : List Str) (text : Str) : Str :=
  ((rawLines text).filter (fun line => !(toFilter files).contains (queryOf2 line))).flatten

end Pre
end AC
