import Verif.Model.Programs
/-!
# The benchmarks of the searches: benchmark/benchmark_common.hpp (benchmark_prefix_topk.cpp,
benchmark_conjunctive_topk.cpp), benchmark/benchmark_locate_prefix.cpp
-/
namespace AC.Bench

/-- `benchmarking::runs`, benchmark/benchmark_common.hpp:8-10 -/
def runs : Nat := 5

/-! ## The macro `BENCHMARK` -/

/-- The inner loop, benchmark/benchmark_common.hpp:69-72: the state of the index and the sum of the `size()` of the results. `search` is `prefix_topk` or
`conjunctive_topk` with the given `k`. -/
def pass (search : Str → Scratch → M Scratch) : List Str → Scratch → M (Scratch × Nat)
  | [], s => .ok (s, 0)
  | q :: qs, s => do
      let s ← search q s
      let (s', n) ← pass search qs s
      .ok (s', s.pool.size + n)

/-- the outer loop, benchmark/benchmark_common.hpp:68-73, with `n` runs left and the value of `reported_strings` -/
def passes (search : Str → Scratch → M Scratch) (qs : List Str) : Nat → Scratch → Nat → M Nat
  | 0, _, reported => .ok reported
  | n + 1, s, reported => do
      let (s, m) ← pass search qs s
      passes search qs n s (reported + m)

/-- `benchmark`, benchmark/benchmark_common.hpp:49-92: the numbers printed as `num_queries` and `reported_strings`. Left out are the times. The sum is a 64-bit
number; fewer than 2^32 queries with at most 15 results each do not exceed it. -/
def queryBenchmark (search : Str → Scratch → M Scratch) (p maxNumQueries : Nat) (input : Stream) (s : Scratch) : M (Nat × Nat) := do
  let qs ← loadQueries p maxNumQueries input
  let reported ← passes search qs runs s 0
  .ok (qs.length, reported / runs)

/-! ## benchmark/benchmark_locate_prefix.cpp -/

/-- The loop that makes the lookups, benchmark/benchmark_locate_prefix.cpp:79-85, with the static array of the dictionary. The value returned by `parse` is not
used, and the range is that of `fc_dictionary::locate_prefix`, without adding 1 to its ends. -/
def lookupsOf (d : FC) : List Str → Str → M (List (Ids × Range))
  | [], _ => .ok []
  | q :: qs, buf => do
      let (_, pfx, suffix, buf) ← parse d q true buf
      let (r, buf) ← FcDict.locatePrefix d suffix buf
      let ls ← lookupsOf d qs buf
      .ok ((pfx, r) :: ls)

/-- The inner loop of the timed part, benchmark/benchmark_locate_prefix.cpp:35-38: the ranges returned, and what the vector `queries` and the static array of the
index are afterwards. `loc` is `locate_prefix` of the index; the index may change the prefix, which it gets by reference. -/
def lookupPass {σ : Type} (loc : Ids → Range → σ → M (Range × Ids × σ)) : List (Ids × Range) → σ → M (List Range × List (Ids × Range) × σ)
  | [], s => .ok ([], [], s)
  | (pfx, r) :: ls, s => do
      let (res, pfx, s) ← loc pfx r s
      let (rs, ls, s) ← lookupPass loc ls s
      .ok (res :: rs, (pfx, r) :: ls, s)

/-- the timed part, benchmark/benchmark_locate_prefix.cpp:34-39: the ranges of every run -/
def lookupRuns {σ : Type} (loc : Ids → Range → σ → M (Range × Ids × σ)) : Nat → List (Ids × Range) → σ → M (List (List Range))
  | 0, _, _ => .ok []
  | n + 1, ls, s => do
      let (rs, ls, s) ← lookupPass loc ls s
      let rss ← lookupRuns loc n ls s
      .ok (rs :: rss)

/-- `locate_prefix` of the trie, which takes the prefix by constant reference (include/completion_trie.hpp:171-172) -/
def locTrie (T : List Trie.CLevel) (pfx : Ids) (r : Range) (_ : Unit) : M (Range × Ids × Unit) := do
  let res ← Trie.locatePrefix T pfx r
  .ok (res, pfx, ())

/-- The program with the type `trie`, benchmark/benchmark_locate_prefix.cpp:67-90: the ranges that the timed part computes, of every run. `d` is the dictionary
that is built at the beginning, `buf` its static array. -/
def locatePrefixTrie (d : FC) (T : List Trie.CLevel) (qs : List Str) (buf : Str) : M (List (List Range)) := do
  let ls ← lookupsOf d qs buf
  lookupRuns (locTrie T) runs ls ()

/-- The program with the type `fc`, benchmark/benchmark_locate_prefix.cpp:67-86,91-97 -/
def locatePrefixFc (d : FC) (D : FC) (qs : List Str) (buf : Str) (cbuf : Ids) : M (List (List Range)) := do
  let ls ← lookupsOf d qs buf
  lookupRuns (IntDict.locatePrefix D) runs ls cbuf

end AC.Bench
