import Verif.Model.Filtered
import Verif.Model.Installed
/-!
# The scripts of test_data and the constructors, with the files by their names

Here the scripts read and write the files of a disk, by name, and end early when a statement raises an exception. The commands of test_data/preprocess.sh are
run one after the other, also after one that has failed: the script does not set `-e`. Texts are in ASCII, see Model/Text.lean. Left out: the messages, the creation of
directories, and files that exist but cannot be opened. When a statement raises an exception, the interpreter closes the open
files, so that what has been written is in them.
-/
namespace AC

/-- the contents of the files, by their names -/
abbrev Disk := Str → Option Str

namespace Disk

/-- a file is written: `open(p, 'w')`, then `write` -/
def put (d : Disk) (p text : Str) : Disk := fun q => if q = p then some text else d q

/-- a file is written at its end: `open(p, 'a')`, then `write` -/
def append (d : Disk) (p text : Str) : Disk := d.put p ((d p).getD [] ++ text)

/-- some files, one after the other -/
def putAll (d : Disk) : List (Str × Str) → Disk
  | [] => d
  | f :: fs => (d.put f.1 f.2).putAll fs

end Disk

/-- a text in ASCII -/
def chars (s : List Char) : Str := s.map Char.toNat

namespace Script
open Pre

/-- test_data/extract_dict.py: the disk afterwards, and whether the script came to its end -/
def extractDict (name : Str) (d : Disk) : Disk × Bool :=
  match d name with
  | none => (d, false)
  | some X => (d.put (name ++ chars ['.', 'd', 'i', 'c', 't']) (dictText (sortedSet ((lines X).flatMap fun l => (split l).drop 1))), true)

/-- the loop of test_data/map_dataset.py:21-46: what is written to `.mapped`, and `max_string_len` unless an exception is raised (by `x[0]` for a line without words) or the
script exits because of an unknown term. `tokens[t]` is the number of the line of `t`; the lines of the file `.dict` are different. -/
def mapLines (tokens : List Str) : List Str → Str → Nat → Str × Option Nat
  | [], out, m => (out, some m)
  | l :: ls, out, m =>
      match split l with
      | [] => (out, none)
      | x :: ts =>
          if ts.all (fun t => decide (t ∈ tokens)) then
            mapLines tokens ls (out ++ (join (x :: (ts.map fun t => dec (tokenId tokens t)) ++ [dec 0]) ++ [10])) (max m (ts.map List.length).sum)
          else (out, none)

/-- test_data/map_dataset.py -/
def mapDataset (name : Str) (d : Disk) : Disk × Bool :=
  match d (name ++ chars ['.', 'd', 'i', 'c', 't']) with
  | none => (d, false)
  | some D =>
      let mapped := name ++ chars ['.', 'm', 'a', 'p', 'p', 'e', 'd']
      let stats := name ++ chars ['.', 'm', 'a', 'p', 'p', 'e', 'd', '.', 's', 't', 'a', 't', 's']
      let d := (d.put mapped []).put stats []
      match d name with
      | none => (d, false)
      | some X =>
          match mapLines (lines D) (lines X) [] 0 with
          | (out, none) => (d.put mapped out, false)
          | (out, some m) => ((d.put mapped out).put stats ([(lines D).length, m].flatMap fun n => dec n ++ [10]), true)

/-- what test_data/build_stats.py:38-47 writes, after the loop 12-36 over the lines of its input; `none` when an exception is raised -/
def statsOf (text : Str) : Option Str := do
  let L ← Pre.parse text
  let nodes := countNodes (L.map (·.2.2)) [] []
  some ([L.length, maxDoc (L.map (·.2.1)) + 1, nodes.length].flatMap (fun n => dec n ++ [10]) ++ (sortKeys nodes).flatMap (fun e => dec e.2 ++ [10]))

/-- test_data/build_stats.py: the file of statistics is opened for appending -/
def buildStats (name : Str) (d : Disk) : Disk × Bool :=
  let stats := name ++ chars ['.', 's', 't', 'a', 't', 's']
  let d := d.append stats []
  match d name with
  | none => (d, false)
  | some Y =>
      match statsOf Y with
      | none => (d, false)
      | some t => (d.append stats t, true)

/-- `num_terms` and `num_docs`, test_data/build_inverted_and_forward.py:20-26: the numbers in the first and the fourth line -/
def twoNumbers (text : Str) : Option (Nat × Nat) :=
  match lines text with
  | a :: _ :: _ :: b :: _ => do
      let a ← int? a
      let b ← int? b
      some (a, b)
  | _ => none

/-- the loop of test_data/build_inverted_and_forward.py:31-60; `none` when an exception is raised, among others because a term or a document is not less than the length
of the list, or when the script exits because of an unknown term -/
def postAll (tokens : List Str) : List Str → List (List Nat) → List (List Nat) → Option (List (List Nat) × List (List Nat))
  | [], inv, fwd => some (inv, fwd)
  | l :: ls, inv, fwd =>
      match parseLine l with
      | none => none
      | some (_, doc, ts) =>
          if ts.all (fun t => decide (t ∈ tokens) && decide (tokenId tokens t < inv.length)) && decide (doc < fwd.length) then
            postAll tokens ls (postTerms tokens doc ts [] inv).2 (fwd.set doc (postTerms tokens doc ts [] inv).1)
          else none

/-- test_data/build_inverted_and_forward.py -/
def buildInvertedAndForward (name : Str) (d : Disk) : Disk × Bool :=
  match d (name ++ chars ['.', 'd', 'i', 'c', 't']) with
  | none => (d, false)
  | some D =>
      let inverted := name ++ chars ['.', 'i', 'n', 'v', 'e', 'r', 't', 'e', 'd']
      let forward := name ++ chars ['.', 'f', 'o', 'r', 'w', 'a', 'r', 'd']
      let d := (d.put inverted []).put forward []
      match (d (name ++ chars ['.', 'm', 'a', 'p', 'p', 'e', 'd', '.', 's', 't', 'a', 't', 's'])).bind twoNumbers with
      | none => (d, false)
      | some (numTerms, numDocs) =>
          match d name with
          | none => (d, false)
          | some X =>
              match postAll (lines D) (lines X) (List.replicate (numTerms + 1) []) (List.replicate numDocs []) with
              | none => (d, false)
              | some (inv, fwd) =>
                  ((d.put forward (fwd.flatMap listText)).put inverted (((inv.drop 1).map sortedSet).flatMap listText), true)

/-- test_data/partition_queries_by_length.py: the seven files are opened before the collection -/
def partitionQueries (shuffle : Nat → List Str → List Str) (n : Nat) (name dir : Str) (d : Disk) : Disk × Bool :=
  let files := Pre.queryFileNames.map fun f => dir ++ chars ['/'] ++ f
  let d := d.putAll (files.map fun f => (f, []))
  match d name with
  | none => (d, false)
  | some X => (d.putAll (files.zip (partition shuffle n X)), true)

/-- `$1` without quotes: the shell splits it at spaces, tabs and newlines. (It also expands patterns with `*`, `?` and `[`; names with these characters are left out.) -/
def wordsAux : Str → Str → List Str
  | [], cur => if cur.isEmpty then [] else [cur]
  | b :: r, cur => if b == 32 || b == 9 || b == 10 then (if cur.isEmpty then wordsAux r [] else cur :: wordsAux r []) else wordsAux r (cur ++ [b])

def shellWords (s : Str) : List Str := wordsAux s []

/-- a script that takes its file from `sys.argv[1]`; without arguments it raises an exception -/
def withArg (args : List Str) (script : Str → Disk → Disk × Bool) (d : Disk) : Disk :=
  match args with
  | [] => d
  | a :: _ => (script a d).1

/-- test_data/partition_queries_by_length.py:3-5 with its arguments, the third of which must be a number -/
def withArgs (args : List Str) (script : Nat → Str → Str → Disk → Disk × Bool) (d : Disk) : Disk :=
  match args with
  | a :: b :: c :: _ =>
      match int? c with
      | none => d
      | some n => (script n a b d).1
  | _ => d

/-- test_data/preprocess.sh; `n` is the second argument -/
def preprocess (shuffle : Nat → List Str → List Str) (n : Nat) (name : Str) (d : Disk) : Disk :=
  let d := withArg (shellWords name) extractDict d
  let d := withArg (shellWords name) mapDataset d
  let d := withArg (shellWords (name ++ chars ['.', 'm', 'a', 'p', 'p', 'e', 'd'])) buildStats d
  let d := withArg (shellWords name) buildInvertedAndForward d
  withArgs (shellWords name ++ shellWords (name ++ chars ['.', 'q', 'u', 'e', 'r', 'i', 'e', 's']) ++ [dec n]) (partitionQueries shuffle) d

/-- test_data/filter_dataset.py: the file for each number of terms, 9-17, and then the collection -/
def filterDataset (name dir : Str) (d : Disk) : Disk × Bool :=
  let names := (List.range 6).map (fun i => chars ['/', 'q', 'u', 'e', 'r', 'i', 'e', 's', '.', 'l', 'e', 'n', 'g', 't', 'h', '='] ++ dec (i + 1)) ++
    [chars ['/', 'q', 'u', 'e', 'r', 'i', 'e', 's', '.', 'l', 'e', 'n', 'g', 't', 'h', '=', '7', '+']]
  match names.mapM (fun f => d (dir ++ f)) with
  | none => (d, false)
  | some queries =>
      let filtered := name ++ chars ['.', 'f', 'i', 'l', 't', 'e', 'r', 'e', 'd']
      let d := d.put filtered []
      match d name with
      | none => (d, false)
      | some X => (d.put filtered (Pre.filterDataset queries X), true)

/-- test_data/filter_dataset.py:4-5 with its arguments -/
def withTwo (args : List Str) (script : Str → Str → Disk → Disk × Bool) (d : Disk) : Disk :=
  match args with
  | a :: b :: _ => (script a b d).1
  | _ => d

/-- test_data/filter_and_preprocess.sh; see `Pre.filterAndPreprocess` for the versions of Python -/
def filterAndPreprocess (shuffle : Nat → List Str → List Str) (n : Nat) (name : Str) (d : Disk) : Disk :=
  let filtered := shellWords (name ++ chars ['.', 'f', 'i', 'l', 't', 'e', 'r', 'e', 'd'])
  let queries := shellWords (name ++ chars ['.', 'f', 'i', 'l', 't', 'e', 'r', 'e', 'd', '.', 'q', 'u', 'e', 'r', 'i', 'e', 's'])
  let d := withArgs (shellWords name ++ queries ++ [dec n]) (partitionQueries shuffle) d
  let d := withTwo (shellWords name ++ queries) filterDataset d
  let d := withArg filtered extractDict d
  let d := withArg filtered mapDataset d
  let d := withArg (shellWords (name ++ chars ['.', 'f', 'i', 'l', 't', 'e', 'r', 'e', 'd', '.', 'm', 'a', 'p', 'p', 'e', 'd'])) buildStats d
  withArg filtered buildInvertedAndForward d

end Script

/-- `params.load()` and the constructor, src/build.cpp:11, 22, 43-45 and include/autocomplete.hpp:19-24, with the names of the files: include/parameters.hpp:19-23,
include/completion_trie.hpp:35-37 and include/integer_fc_dictionary.hpp:33-36, include/fc_dictionary.hpp:31-35, include/inverted_index.hpp:25-27 and
include/blocked_inverted_index.hpp:38-40, include/compact_forward_index.hpp:18-20. Without the file of statistics or that of the terms an exception is thrown. Without the
file of completions the loop of include/util_types.hpp:236-239 does not end. Without one of the last two, the numbers are read as from an empty file. (All the files are read
here before the first of the parts is built.) -/
def indexFromDisk {α : Type} (build : Files → M α) (junk : Nat) (name : Str) (d : Disk) : M α :=
  match d (name ++ chars ['.', 'm', 'a', 'p', 'p', 'e', 'd', '.', 's', 't', 'a', 't', 's']) with
  | none => .error .thrown
  | some stats => do
      let P ← Params.load junk stats
      match d (name ++ chars ['.', 'm', 'a', 'p', 'p', 'e', 'd']), d (name ++ chars ['.', 'd', 'i', 'c', 't']) with
      | none, _ => .error .diverge
      | _, none => .error .thrown
      | some mapped, some dict => do
          let F ← Texts.read ⟨dict, mapped, stats, (d (name ++ chars ['.', 'i', 'n', 'v', 'e', 'r', 't', 'e', 'd'])).getD [],
            (d (name ++ chars ['.', 'f', 'o', 'r', 'w', 'a', 'r', 'd'])).getD []⟩ P
          build F

end AC
