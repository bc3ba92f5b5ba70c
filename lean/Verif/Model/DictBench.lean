import Verif.Model.Benchmarks
import Verif.Model.BucketSize
/-!
# The benchmarks of the dictionaries: benchmark/benchmark_fc_dictionary.cpp, benchmark/benchmark_integer_fc_dictionary.cpp

The values that the operations return are collected here; the programs pass them to `do_not_optimize_away` and print only
times and sizes, which are left out.
-/
namespace AC.DictBench

/-- `exe(4) exe(8) … exe(256)`, benchmark/benchmark_fc_dictionary.cpp:106, benchmark/benchmark_integer_fc_dictionary.cpp:59 -/
def bucketSizes : List Nat := [4, 8, 16, 32, 64, 128, 256]

/-- `n` iterations of a loop whose body returns a value and changes a state -/
def times {σ α : Type} (f : σ → M (α × σ)) : Nat → σ → M (List α × σ)
  | 0, s => .ok ([], s)
  | n + 1, s => do
      let (x, s) ← f s
      let (xs, s) ← times f n s
      .ok (x :: xs, s)

/-! ## benchmark/benchmark_fc_dictionary.cpp -/

/-- The loops that locate the queries, benchmark/benchmark_fc_dictionary.cpp:16-19 and :28-31, with the static array of
the dictionary -/
def locatePass (B : Nat) (d : FC) : List Str → Str → M (List Nat × Str)
  | [], buf => .ok ([], buf)
  | q :: qs, buf => do
      let (id, buf) ← FcDict.locateB B d q buf
      let (ids, buf) ← locatePass B d qs buf
      .ok (id :: ids, buf)

/-- The loop that extracts the strings, benchmark/benchmark_fc_dictionary.cpp:37-40: the first `string_len` bytes of
`decoded` after each call, and `decoded` -/
def extractPass (B : Nat) (d : FC) : List Nat → Str → M (List Str × Str)
  | [], dec => .ok ([], dec)
  | id :: ids, dec => do
      let (dec, n) ← FcDict.extractB B d id dec 0
      let (ts, dec') ← extractPass B d ids dec
      .ok (dec.take n :: ts, dec')

/-- The bytes between `addr` and `addr + n`, benchmark/benchmark_fc_dictionary.cpp:53-58, with `p = i / 4`. The product of
the size and `p` is computed with numbers of type `float`; for sizes up to `2^22` it is exact. `data()` ends with a null byte. -/
def prefixOf (i : Nat) (q : Str) : Str :=
  let n := q.length * i / 4
  (q ++ [0]).take (if n = 0 then 1 else n)

/-- The loop over the queries, benchmark/benchmark_fc_dictionary.cpp:52-60 -/
def prefixPass (B : Nat) (d : FC) (i : Nat) : List Str → Str → M (List Range × Str)
  | [], buf => .ok ([], buf)
  | q :: qs, buf => do
      let (r, buf) ← FcDict.locatePrefixB B d (prefixOf i q) buf
      let (rs, buf) ← prefixPass B d i qs buf
      .ok (r :: rs, buf)

/-- the loop over the percentages, benchmark/benchmark_fc_dictionary.cpp:47-67 -/
def prefixPasses (B : Nat) (d : FC) (qs : List Str) : List Nat → Str → M (List (List (List Range)) × Str)
  | [], buf => .ok ([], buf)
  | i :: is, buf => do
      let (rs, buf) ← times (prefixPass B d i qs) Bench.runs buf
      let (rss, buf) ← prefixPasses B d qs is buf
      .ok (rs :: rss, buf)

/-- What the operations return: for each run the ids of the queries; for each run the strings of these ids; for each
percentage and run the ranges -/
structure Measured where
  located : List (List Nat)
  texts : List (List Str)
  ranges : List (List (List Range))

/-- `perf_test`, benchmark/benchmark_fc_dictionary.cpp:8-68. The static arrays of `locate`, `left_locate` and
`right_locate` are one array here, see `FcDict.bufSize`. -/
def perfTerms (B : Nat) (d : FC) (qs : List Str) (buf dec : Str) : M Measured := do
  let (located, buf) ← times (locatePass B d qs) Bench.runs buf
  let (ids, buf) ← locatePass B d qs buf
  let (texts, _) ← times (extractPass B d ids) Bench.runs dec
  let (ranges, _) ← prefixPasses B d qs [0, 1, 2, 3, 4] buf
  .ok ⟨located, texts, ranges⟩

/-- the macro `exe`, benchmark/benchmark_fc_dictionary.cpp:70-79; each instance has its own static arrays, filled with zeros -/
def exeTerms (B : Nat) (terms qs : List Str) : M Measured := do
  let d ← FcDict.buildB B terms
  perfTerms B d qs (List.replicate FcDict.bufSize 0) (List.replicate (2 * MAX_CHARS) 0)

/-- the queries, benchmark/benchmark_fc_dictionary.cpp:94-101 -/
def readQueries : Nat → Stream → List Str
  | 0, _ => []
  | n + 1, s =>
      match s.getLine with
      | none => []
      | some (line, s) => line :: readQueries n s

/-- `main`, benchmark/benchmark_fc_dictionary.cpp:81-107, with the terms of the collection and the input -/
def mainTerms (terms : List Str) (maxNumQueries : Nat) (input : Stream) : M (List Measured) :=
  bucketSizes.mapM fun B => exeTerms B terms (readQueries maxNumQueries input)

/-! ## benchmark/benchmark_integer_fc_dictionary.cpp -/

/-- The loop, benchmark/benchmark_integer_fc_dictionary.cpp:16-19: the first `string_len` ids of `decoded` after each call,
and `decoded` -/
def extractIdsPass (B : Nat) (d : FC) : List Nat → Ids → M (List Ids × Ids)
  | [], dec => .ok ([], dec)
  | id :: ids, dec => do
      let (dec, n) ← IntDict.extractB B d id dec
      let (ts, dec') ← extractIdsPass B d ids dec
      .ok (dec.take n :: ts, dec')

/-- `perf_test` and the macro `exe`, benchmark/benchmark_integer_fc_dictionary.cpp:9-38, with the map from documents to
completions of `univ` entries -/
def exeIds (B univ : Nat) (records : List (Nat × Ids)) (queries : List Nat) : M (List (List Ids)) := do
  let (d, _) ← IntDict.buildB B univ records
  let (xs, _) ← times (extractIdsPass B d queries) Bench.runs (List.replicate (2 * MAX_CHARS) 0)
  .ok xs

/-- `main`, benchmark/benchmark_integer_fc_dictionary.cpp:40-60. `shuffle` is `std::shuffle` with the engine given there. -/
def mainIds (shuffle : List Nat → List Nat) (univ : Nat) (records : List (Nat × Ids)) (numQueries : Nat) : M (List (List (List Ids))) :=
  bucketSizes.mapM fun B => exeIds B univ records (shuffle (List.range numQueries))

end AC.DictBench
