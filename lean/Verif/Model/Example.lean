import Verif.Model.Scripts
import Verif.Model.Deploy
/-!
# The scripts that build the indexes and start the server: install.sh, example.sh, Dockerfile, script/build_indexes.py

The names of files are relative to the directory of the repository (in the image: absolute), so that `../test_data/x`, seen from the directory `build`, is the file `test_data/x`.
The name of the data set is a parameter; install.sh, example.sh and Dockerfile are written for `trec_05_efficiency_queries`. Left out: compiling the programs,
running the tests, names that contain characters that are special for the shell, and files that cannot be written.
-/
namespace AC

/-- a script that is run in the directory `dir` (whose name ends with a slash) and names no files outside of it -/
def Disk.within (dir : Str) (f : Disk → Disk) (d : Disk) : Disk :=
  fun q => if q.take dir.length = dir then f (fun p => d (dir ++ p)) (q.drop dir.length) else d q

namespace Script

/-- `test_data/` -/
def testData : Str := chars ['t', 'e', 's', 't', '_', 'd', 'a', 't', 'a', '/']

/-- `build/` -/
def buildDir : Str := chars ['b', 'u', 'i', 'l', 'd', '/']

/-- the file of a data set in the directory `test_data`, install.sh:8, example.sh:2, script/build_indexes.py:6 -/
def collection (name : Str) : Str := name ++ chars ['/'] ++ name ++ chars ['.', 'c', 'o', 'm', 'p', 'l', 'e', 't', 'i', 'o', 'n', 's']

/-- install.sh:7-8: `cd ../test_data`, `bash preprocess.sh ... 300`; the rest of the script is left out -/
def install (shuffle : Nat → List Str → List Str) (name : Str) (d : Disk) : Disk := d.within testData (preprocess shuffle 300 (collection name))

/-- the program `build` with the option `-o`, src/build.cpp:9-29, 43-60: the disk afterwards -/
def makeIndex {α : Type} (build : Files → M α) (print : α → M (List Nat)) (visit : {σ : Type} → Visitor σ → α → σ → M (α × σ)) (junk : Nat)
    (coll out : Str) (d : Disk) : M Disk := do
  let x ← indexFromDisk build junk coll d
  let _ ← print x
  let file ← save visit x
  .ok (d.put out file)

/-- a command of a script that goes on after a program has ended with an exception, as all of these scripts do: nothing has been written then. Nothing
is said of a program that has accessed memory out of bounds, and one that does not end holds the script up. -/
def goOn (run : Disk → M Disk) (d : Disk) : M Disk :=
  match run d with
  | .error .thrown => .ok d
  | o => o

/-- the index file of example.sh:2-3 and Dockerfile:17, 25 -/
def exampleFile : Str := chars ['t', 'r', 'e', 'c', '_', '0', '5', '.', 'e', 'f', '_', 't', 'y', 'p', 'e', '1', '.', 'b', 'i', 'n']

/-- `web_server 8000 <index>`, src/web_server.cpp:88-116: the responses to some requests for `/topcomp`. The library `essentials`, which is not in the tree, is taken to throw an
exception when there is no file. -/
def serverOf (std : StdLib) (mem : Nat → W) (file : Str) (rs : List (Option Str × Option Str)) (d : Disk) : M (List Str) :=
  match d file with
  | none => .error .thrown
  | some f => Web.main std mem f rs

/-- The other requests: the file of the directory `../web` that the request names (with a leading slash), src/web_server.cpp:82-84, 107. `parent` is the directory above
the one in which the server was started. That `/` stands for `/index.html` is left to the library `mongoose`. -/
def staticFile (parent uri : Str) (d : Disk) : Option Str := d (parent ++ chars ['w', 'e', 'b'] ++ uri)

/-- example.sh:1-2: `cd build`, `./build ef_type1 ...` -/
def exampleBuild (junk : Nat) (mem : Nat → W) (name : Str) : Disk → M Disk :=
  goOn (makeIndex (Index1.build · mem) Index1.printed (fun V => V.index1) junk (testData ++ collection name) (buildDir ++ exampleFile))

/-- example.sh: the responses of the server that it starts -/
def exampleRun (std : StdLib) (junk : Nat) (mem mem' : Nat → W) (name : Str) (rs : List (Option Str × Option Str)) (d : Disk) : M (List Str) := do
  let d ← exampleBuild junk mem name d
  serverOf std mem' (buildDir ++ exampleFile) rs d

/-- `/src/` -/
def srcDir : Str := chars ['/', 's', 'r', 'c', '/']

/-- `/app/` -/
def appDir : Str := chars ['/', 'a', 'p', 'p', '/']

/-- Dockerfile:1, 7: the files of `ubuntu:latest`, and those of the directory of the repository in `/src` -/
def copied (base d : Disk) : Disk := fun q => if q.take srcDir.length = srcDir then d (q.drop srcDir.length) else base q

/-- Dockerfile:1-21: the files of the image, made in the directory of the repository. `base` are the files of `ubuntu:latest`. A command that fails ends the build of the image. The
programs are left out. -/
def image (junk : Nat) (mem : Nat → W) (name : Str) (base d : Disk) : M Disk := do
  let built ← makeIndex (Index1.build · mem) Index1.printed (fun V => V.index1) junk (srcDir ++ testData ++ collection name) (appDir ++ exampleFile) (copied base d)
  .ok fun q => if q.take srcDir.length = srcDir then none else built q

/-- Dockerfile:25: the responses of the server that the image starts, in the directory `/app` -/
def imageRun (std : StdLib) (mem : Nat → W) (rs : List (Option Str × Option Str)) : Disk → M (List Str) := serverOf std mem (appDir ++ exampleFile) rs

/-- the name of an index file, script/build_indexes.py:6 -/
def indexFile (type : Nat) (name : Str) : Str :=
  buildDir ++ (chars ['e', 'f', '_', 't', 'y', 'p', 'e'] ++ Pre.dec type ++ chars ['.'] ++ name ++ chars ['.', 'b', 'i', 'n'])

/-- `-c 0.0001`, script/build_indexes.py:6, as a `float`: 13743895 * 2^-37, here in units of 2^-149 -/
def cArg : Nat := 13743895 * 2 ^ 112

/-- script/build_indexes.py, run in the directory `build`. Each of the four processes has its own memory. -/
def buildIndexes (std : StdLib) (junk : Nat → Nat) (mem : Nat → Nat → W) (name : Str) (d : Disk) : M Disk := do
  let coll := testData ++ collection name
  let d ← goOn (makeIndex (Index1.build · (mem 1)) Index1.printed (fun V => V.index1) (junk 1) coll (indexFile 1 name)) d
  let d ← goOn (makeIndex (Index2.build · (mem 2)) Index2.printed (fun V => V.index2) (junk 2) coll (indexFile 2 name)) d
  let d ← goOn (makeIndex (Index3.build · (mem 3)) Index3.printed (fun V => V.index3) (junk 3) coll (indexFile 3 name)) d
  goOn (makeIndex (Index4.buildC std cArg · (mem 4)) Index4.printed (fun V => V.index4) (junk 4) coll (indexFile 4 name)) d

end Script
end AC
