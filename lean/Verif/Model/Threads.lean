import Verif.Model.FcDictionary
import Verif.Model.IntDictionary
/-!
# Lookups by several threads

The arrays `decoded` are static (include/fc_dictionary.hpp:303, include/integer_fc_dictionary.hpp:306): all the threads that run the same
function of the same class use the same array. The rest of a lookup only reads the dictionary and writes local variables.

A lookup is cut into steps, each of which either writes the array (the initial `memcpy`, a `decode`) or reads it (a comparison). The steps
of different threads are taken in any order; each of them is atomic. In C++ there are more executions than these (the copies and comparisons
are not atomic, and a data race has no defined behaviour), so that what goes wrong here also goes wrong there.
-/
namespace AC
namespace FC

/-- what a thread runs: the scan of bucket `b`, whose header is `h`; see `scan` -/
structure Scan where
  stop : Nat → List Nat → Option Nat
  h : List Nat
  b : Nat

/-- where a thread is -/
inductive PC
  /-- before `*_LOCATE_INIT` -/
  | enter
  /-- at the head of the loop, with `n` strings left, the next of which has index `i` and is at `cur` -/
  | loop (n i cur : Nat)
  /-- after `decode`, which has returned `len` and `l` -/
  | test (n i cur len l : Nat)
  /-- after the end of the loop or `return` -/
  | done (r : Option Nat)
  deriving DecidableEq

/-- a step of a thread, include/fc_dictionary.hpp:302-378, include/integer_fc_dictionary.hpp:305-375 (as in `scan` and `scanLoop`): where it
is next, and the array -/
def Scan.step (E : Elem) (d : FC) (c : Scan) : PC → List Nat → M (PC × List Nat)
  | .enter, decoded => do
      let decoded ← memcpy decoded 0 c.h 0 c.h.length
      let cur ← rd d.ptrBuckets c.b
      .ok (.loop (d.bucketSize c.b) 1 cur, decoded)
  | .loop 0 _ _, decoded => .ok (.done none, decoded)
  | .loop (n + 1) i cur, decoded => do
      let (decoded, len, l) ← decode E d cur decoded 0
      .ok (.test n i cur len l, decoded)
  | .test n i cur len l, decoded =>
      match c.stop i (decoded.take len) with
      | some r => .ok (.done (some r), decoded)
      | none => .ok (.loop n (i + 1) (cur + 2 + len * E.width - l * E.width), decoded)
  | .done r, decoded => .ok (.done r, decoded)

/-- the threads and the array they share -/
structure World where
  pc : Nat → PC
  decoded : List Nat

/-- a step of thread `k` -/
def World.step (E : Elem) (d : FC) (calls : Nat → Scan) (k : Nat) (w : World) : M World := do
  let (p, decoded) ← (calls k).step E d (w.pc k) w.decoded
  .ok ⟨fun j => if j = k then p else w.pc j, decoded⟩

/-- the steps of the threads of a schedule, in this order -/
def World.run (E : Elem) (d : FC) (calls : Nat → Scan) : List Nat → World → M World
  | [], w => .ok w
  | k :: ks, w => do
      let w ← w.step E d calls k
      World.run E d calls ks w

/-- The same when copies and comparisons are not atomic: before each step the array is replaced by any other of its size. A comparison reads each
element of the array at most once, and a copy reads none: whatever other threads write while a step is being taken, element by element, what
the step reads is what it reads from some such array. -/
def World.torn (E : Elem) (d : FC) (calls : Nat → Scan) : List (Nat × List Nat) → World → M World
  | [], w => .ok w
  | (k, decoded) :: ks, w => do
      let w ← World.step E d calls k ⟨w.pc, decoded⟩
      World.torn E d calls ks w

end FC

namespace FcDict
open FC

/-- the scan that `locate(t)` runs for bucket `b`, include/fc_dictionary.hpp:344-354 (as in `locateIn`) -/
def locateScan (t h : Str) (b : Nat) : Scan where
  stop i s :=
    let cmp := byteCompare t s
    if cmp = 0 then some i else if cmp < 0 then some INVALID_TERM else none
  h := h
  b := b

/-- what `locate(t)` returns after the scan of bucket `b`, include/fc_dictionary.hpp:141-147 -/
def locateEnd (b : Nat) (r : Option Nat) : Nat :=
  if r.getD INVALID_TERM = INVALID_TERM then INVALID_TERM else b * 17 + 1 + r.getD INVALID_TERM

end FcDict

namespace IntDict
open FC

/-- the scan that `left_locate(p)` runs for bucket `b`, include/integer_fc_dictionary.hpp:364-375 (as in `leftLocate`) -/
def leftScan (p h : Ids) (b : Nat) : Scan where
  stop i s := if idsCompareN s p p.length ≥ 0 then some i else none
  h := h
  b := b

end IntDict
end AC
