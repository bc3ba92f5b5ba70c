import Verif.Model.Autocomplete
import Verif.Spec.Query
/-!
# The preprocessing of a collection: the scripts called by test_data/preprocess.sh

A collection is the list of the lines of the input file, each with a document id and its words (`line.split()`). Reading and writing
text files is modelled in Model/Text.lean. The words are sequences of bytes or, as in Python, of code points, see Model/Unicode.lean (C62).
-/
namespace AC.Pre
open Spec (Coll)

/-- insertion in an increasing list without repetitions -/
def insertSet {α : Type} [LT α] [DecidableLT α] [DecidableEq α] (x : α) : List α → List α
  | [] => [x]
  | y :: ys => if x < y then x :: y :: ys else if x = y then y :: ys else y :: insertSet x ys

/-- `sorted(set(xs))` -/
def sortedSet {α : Type} [LT α] [DecidableLT α] [DecidableEq α] : List α → List α
  | [] => []
  | x :: xs => insertSet x (sortedSet xs)

/-- test_data/extract_dict.py:5-24 -/
def extractDict (C : Coll) : List Str := sortedSet (C.flatMap (·.2))

/-- `tokens[t]`, test_data/map_dataset.py:5-12 and test_data/build_inverted_and_forward.py:5-12: lines are numbered from 1 -/
def tokenId (terms : List Str) (t : Str) : Nat := terms.idxOf t + 1

/-- test_data/map_dataset.py:21-42, the file `.mapped` without the terminators -/
def mapDataset (terms : List Str) (C : Coll) : List (Nat × Ids) := C.map (fun r => (r.1, r.2.map (tokenId terms)))

/-- `max_string_len`, test_data/map_dataset.py:19-38 -/
def maxStringLen (C : Coll) : Nat := C.foldl (fun m r => max m ((r.2.map List.length).sum)) 0

/-- the second inner loop of test_data/build_stats.py:26-31: `nodes_per_level` is a dictionary; its keys, without the values -/
def addLevels (keys : List Nat) : List Nat → List Nat
  | [] => keys
  | l :: ls => addLevels (if l ∈ keys then keys else keys ++ [l]) ls

/-- the loop of test_data/build_stats.py:12-36, for `nodes_per_level` -/
def levelKeys : List Ids → Ids → List Nat → List Nat
  | [], _, keys => keys
  | q :: qs, prev, keys => levelKeys qs q (addLevels keys (List.range' (FC.lcp q prev) (q.length - FC.lcp q prev)))

/-- `len(nodes_per_level)`, test_data/build_stats.py:45; lines end with the terminator 0 -/
def numLevels (cs : List Ids) : Nat := (levelKeys (cs.map (· ++ [0])) [] []).length

/-- `universe + 1`, test_data/build_stats.py:11-18 and 44 -/
def univOf (C : Coll) : Nat := C.foldl (fun m r => if r.1 > m then r.1 else m) 0 + 1

/-- the inner loop of test_data/build_inverted_and_forward.py:34-50: `mapped` and `inverted_index` -/
def postTerms (terms : List Str) (doc : Nat) : List Str → Ids → List (List Nat) → Ids × List (List Nat)
  | [], mapped, inv => (mapped, inv)
  | t :: ts, mapped, inv =>
      postTerms terms doc ts (mapped ++ [tokenId terms t])
        (if tokenId terms t ∈ mapped then inv else inv.modify (tokenId terms t) (· ++ [doc]))

/-- the loop of test_data/build_inverted_and_forward.py:31-56: `inverted_index` and `forward_index` -/
def postLines (terms : List Str) : Coll → List (List Nat) → List (List Nat) → List (List Nat) × List (List Nat)
  | [], inv, fwd => (inv, fwd)
  | r :: rs, inv, fwd =>
      postLines terms rs (postTerms terms r.1 r.2 [] inv).2 (fwd.set r.1 (postTerms terms r.1 r.2 [] inv).1)

/-- test_data/build_inverted_and_forward.py:28-74: the files `.inverted` and `.forward` -/
def invertedAndForward (terms : List Str) (univ : Nat) (C : Coll) : List (List Nat) × List (List Nat) :=
  let r := postLines terms C (List.replicate (terms.length + 1) []) (List.replicate univ [])
  ((r.1.drop 1).map sortedSet, r.2)

/-- all of test_data/preprocess.sh, except the queries of the benchmarks -/
def run (C : Coll) : Files :=
  let terms := extractDict C
  let mapped := mapDataset terms C
  let (inverted, forward) := invertedAndForward terms (univOf C) C
  ⟨terms, mapped, inverted, forward, univOf C, numLevels (mapped.map (·.2)), maxStringLen C⟩

end AC.Pre
