import Verif.Model.Collect
import Verif.Model.DictBench
/-!
# The script that benchmarks the dictionaries: script/benchmark_dictionaries.sh

Modelled is its last call (line 6), after the preprocessing (line 2). The two calls in between (lines 4 and 5) are `Collect.locatePrefix`. Left out are the directories and the file
for the output.
-/
namespace AC.DictScript

/-- the number of queries of each size, script/benchmark_dictionaries.sh:2, and the number of queries that the benchmark reads, script/benchmark_dictionaries.sh:6 -/
def numQueries : Nat := 100000

/-- `queries.length=1`, script/benchmark_dictionaries.sh:6, without the directory -/
def inputName : Str := [113, 117, 101, 114, 105, 101, 115, 46, 108, 101, 110, 103, 116, 104, 61, 49]

/-- script/benchmark_dictionaries.sh:6, after the preprocessing of line 2: `coll` is the text of the collection and `terms` are the terms that the preprocessing wrote. When the file
of the queries is missing, the shell does not run the program. -/
def fcDictionary (shuffle : Nat → List Str → List Str) (coll : Str) (terms : List Str) : Option (M (List DictBench.Measured)) :=
  ((Pre.queryFiles shuffle numQueries coll).lookup inputName).map fun file => DictBench.mainTerms terms numQueries (.ofText file)

end AC.DictScript
