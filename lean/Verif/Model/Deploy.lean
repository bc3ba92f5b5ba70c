import Verif.Model.Sizes
import Verif.Model.Text
import Verif.Model.WebServer
import Verif.Model.BlockSize
/-!
# The programs that build an index file, print its statistics and serve it: src/build.cpp, src/statistics.cpp, src/web_server.cpp

The arguments of the programs are not represented: the collection's name, the type, the name of the index file.
-/
namespace AC

/-- How the files that the scripts make of a text become an index: `params.load()` and the constructor, src/build.cpp:11, 22, 43-45. `junk` is what `load`
leaves in a variable, see `Params.load`. -/
def indexOfTexts {α : Type} (build : Files → M α) (junk : Nat) : Option Texts → M α
  | none => .error .thrown
  | some T => do
      let P ← Params.load junk T.stats
      let F ← T.read P
      build F

/-- the index of a text in ASCII -/
def indexOf {α : Type} (build : Files → M α) (junk : Nat) (X : Str) : M α := indexOfTexts build junk (Pre.prepare X)

/-- `build<Index>(params, output_filename)` and `build_type4`, src/build.cpp:9-29, from the files of the scripts: the numbers printed and the index file -/
def buildProgramOf {α : Type} (build : Files → M α) (print : α → M (List Nat)) (visit : {σ : Type} → Visitor σ → α → σ → M (α × σ)) (junk : Nat)
    (T : Option Texts) : M (List Nat × List Nat) := do
  let x ← indexOfTexts build junk T
  let out ← print x
  let file ← save visit x
  .ok (out, file)

/-- the scripts and the program, for a text in ASCII -/
def buildProgram {α : Type} (build : Files → M α) (print : α → M (List Nat)) (visit : {σ : Type} → Visitor σ → α → σ → M (α × σ)) (junk : Nat)
    (X : Str) : M (List Nat × List Nat) := buildProgramOf build print visit junk (Pre.prepare X)

/-- `print_stats<Index>(index_filename)`, src/statistics.cpp:9-14; `blank` is the index before loading -/
def statsProgram {α : Type} (print : α → M (List Nat)) (visit : {σ : Type} → Visitor σ → α → σ → M (α × σ)) (blank : α) (file : List Nat) :
    M (List Nat) := do
  let x ← load visit blank file
  print x

/-- the numbers behind what `print_stats` of type 1 prints, include/statistics.hpp:46-88 -/
def Index1.printed (x : Index1) : M (List Nat) := do
  let s ← x.stats
  .ok (s ++ x.counts)

/-- the numbers behind what `print_stats` of type 2 prints, include/statistics.hpp:91-123 -/
def Index2.printed (x : Index2) : M (List Nat) := .ok (x.stats ++ x.counts)

/-- the numbers behind what `print_stats` of type 3 prints, include/statistics.hpp:125-147 -/
def Index3.printed (x : Index3) : M (List Nat) := .ok (x.stats ++ x.counts)

/-- the numbers behind what `print_stats` of type 4 prints, include/statistics.hpp:150-182 -/
def Index4.printed (x : Index4) : M (List Nat) := .ok (x.stats ++ x.counts)

namespace Web

/-- The responses to some requests for `/topcomp`, one after the other, src/web_server.cpp:36-86, 112: the parameters `q` and `k` of each. The library
`mongoose` calls the handler in a single thread. After a fault or an exception there is no server any more. -/
def serve (std : StdLib) (x : Index1) : List (Option Str × Option Str) → Scratch → M (List Str)
  | [], _ => .ok []
  | r :: rs, s => do
      let (sent, s) ← respond std x r.1 r.2 s
      let rest ← serve std x rs s
      .ok (sent :: rest)

/-- `main`, src/web_server.cpp:88-116: the index, a static variable, is loaded from the file -/
def main (std : StdLib) (mem : Nat → W) (file : List Nat) (rs : List (Option Str × Option Str)) : M (List Str) := do
  let x ← load (fun V => V.index1) (Index1.blank mem) file
  serve std x rs Scratch.fresh

end Web
end AC
