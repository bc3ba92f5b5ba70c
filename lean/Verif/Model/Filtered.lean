import Verif.Model.Tools
import Verif.Model.Deploy
/-!
# Indexes without the queries: test_data/filter_and_preprocess.sh
-/
namespace AC.Pre

/-- The files of queries, then the files that the scripts make of the collection without these queries, test_data/filter_and_preprocess.sh:9-14. Unlike test_data/preprocess.sh, this
script runs `python`, which must be Python 2 because of test_data/filter_dataset.py:2. The other scripts are those of Python 3 here: the two versions read a text in the same
way unless it has carriage returns or the bytes 28 to 31 (or bytes outside of ASCII). -/
def filterAndPreprocess (shuffle : Nat → List Str → List Str) (n : Nat) (text : Str) : List Str × Option Texts :=
  let queries := partition shuffle n text
  (queries, prepare (filterDataset queries text))

end AC.Pre
