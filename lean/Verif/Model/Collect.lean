import Verif.Model.Installed
import Verif.Model.Benchmarks
/-!
# The scripts that collect the results of the benchmarks: script/collect_results_by_varying_percentage.py,
script/collect_effectiveness_results_by_varying_percentage.py, script/collect_locate_prefix_results_by_varying_percentage.py

Modelled are the calls that the scripts make, in their order, and whether the shell runs them. The text of the results, which the programs append to a file, is represented by
what the program computes. Left out is the directory of the files.
-/
namespace AC.Collect

/-- `percentages`, script/collect_results_by_varying_percentage.py:14, as single-precision numbers in units of 2^-149 -/
def percentages : List Nat := [0, 2 ^ 147, 2 ^ 148, 3 * 2 ^ 147]

/-- the argument for the number of terms, also the end of the name of the file of queries: `range(1, n + 1)`, and `n + 1` with a plus sign. `n` is 6 in
script/collect_results_by_varying_percentage.py:16-18 and 7 in script/collect_locate_prefix_results_by_varying_percentage.py:12-14. -/
def labels (n : Nat) : List Str := (List.range n).map (fun i => [48 + (i + 1)]) ++ [[48 + (n + 1), 43]]

/-- the calls of the benchmark: the percentage and the number of terms, script/collect_results_by_varying_percentage.py:15-18 -/
def calls (n : Nat) : List (Nat × Str) := percentages.flatMap fun p => (labels n).map fun t => (p, t)

/-- `queries.` and `length=`, script/collect_results_by_varying_percentage.py:12 and 17-18, and likewise in the other two scripts, without the directory -/
def queriesName : Str := [113, 117, 101, 114, 105, 101, 115, 46] ++ [108, 101, 110, 103, 116, 104, 61]

/-- `os.system` with the redirection `<` of a file: when it cannot be opened, the shell does not run the program, and nothing is appended to the results; the script goes on. `dir`
is the directory with the files of queries, `bench` the benchmark with its other arguments. -/
def run {α : Type} (bench : Nat → Stream → α) (dir : List (Str × Str)) (cs : List (Nat × Str)) : List (Nat × Str × α) :=
  cs.filterMap fun c => (dir.lookup (queriesName ++ c.2)).map fun text => (c.1, c.2, bench c.1 (.ofText text))

/-- script/collect_results_by_varying_percentage.py:10-18, script/collect_effectiveness_results_by_varying_percentage.py:9-17 -/
def results {α : Type} (bench : Nat → Stream → α) (dir : List (Str × Str)) : List (Nat × Str × α) := run bench dir (calls 6)

/-- script/collect_locate_prefix_results_by_varying_percentage.py:7-14 -/
def locatePrefix {α : Type} (bench : Nat → Stream → α) (dir : List (Str × Str)) : List (Nat × Str × α) := run bench dir (calls 7)

/-- `benchmark_locate_prefix` with the type `trie`, from its input, benchmark/benchmark_locate_prefix.cpp:67-90 -/
def locateTrie (d : FC) (T : List Trie.CLevel) (n : Nat) (buf : Str) (p : Nat) (input : Stream) : M (List (List Range)) := do
  let qs ← Bench.loadQueries p n input
  Bench.locatePrefixTrie d T qs buf

end AC.Collect
