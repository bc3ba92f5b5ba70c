import Verif.Model.TestsSearch
import Verif.Model.Tools
/-!
# The test of `locate_prefix` on the files that the scripts write: install.sh:8-10
-/
namespace AC

/-- `queries.length=` of the script that writes the files, test_data/partition_queries_by_length.py:11-12, without the directory -/
def Pre.queriesName : Str := [113, 117, 101, 114, 105, 101, 115, 46, 108, 101, 110, 103, 116, 104, 61]

/-- `queries.length=` of the test that reads them, test/test_locate_prefix.cpp:87, without the directory -/
def Tests.queriesName : Str := [113, 117, 101, 114, 105, 101, 115, 46, 108, 101, 110, 103, 116, 104, 61]

/-- the names of the files of queries, test_data/partition_queries_by_length.py:10-12 -/
def Pre.queryFileNames : List Str := (List.range 6).map (fun i => queriesName ++ [48 + (i + 1)]) ++ [queriesName ++ [48 + 7, 43]]

/-- the directory that the script makes, test_data/partition_queries_by_length.py, as a list of names and texts -/
def Pre.queryFiles (shuffle : Nat → List Str → List Str) (n : Nat) (text : Str) : List (Str × Str) :=
  Pre.queryFileNames.zip (Pre.partition shuffle n text)

/-- opening the file of the queries of `n` terms, `n` being a digit, test/test_locate_prefix.cpp:85-88 -/
def Tests.openQueries (dir : List (Str × Str)) (n : Nat) : Option Str := dir.lookup (Tests.queriesName ++ [48 + n])

/-- the test after install.sh:8: `F` are the other files that the scripts write, `coll` is the text of the collection, `n` is the number of queries of each size -/
def Tests.installed (F : Files) (shuffle : Nat → List Str → List Str) (n : Nat) (coll : Str) : M Bool :=
  Tests.searches F coll (Tests.openQueries (Pre.queryFiles shuffle n coll))

end AC
