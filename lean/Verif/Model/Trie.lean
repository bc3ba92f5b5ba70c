import Verif.Model.EliasFano
import Verif.Model.FrontCoding
/-!
# The trie of completions, include/completion_trie.hpp
-/
namespace AC

/-- `f 0`, ..., `f (n - 1)` run in order, the results collected -/
def tabM {α : Type} (f : Nat → M α) : Nat → M (List α)
  | 0 => .ok []
  | n + 1 => do
      let xs ← tabM f n
      let x ← f n
      .ok (xs ++ [x])

namespace Trie

/-- One level of the builder: `m_nodes[i]`, `m_pointers[i]`, `m_left_extremes[i]`, `m_sizes[i]` and `offsets[i]`,
include/completion_trie.hpp:159-162, 34. (The last level has no pointers and no offset; the fields are there but unused.) -/
structure Level where
  nodes : List Nat
  ptrs : List Nat
  left : List Nat
  sizes : List Nat
  off : Nat
  deriving DecidableEq

/-- a level before the loop, include/completion_trie.hpp:16-34 -/
def Level.init : Level := ⟨[], [0], [], [], 0⟩

/-- What one iteration of the loop over the completions does to level `i`, include/completion_trie.hpp:48-73.
The loops over the levels are `for i = l; ...; ++i`, and each touches a level at most once and no other, so they are rendered
level by level. `c` is the completion without its terminator, `prevS` and `currS` are the lengths without terminator, `n`
is `r.begin = r.end`. -/
def Level.step (levels l prevS : Nat) (c : Ids) (n i : Nat) (t : Level) : Level :=
  let currS := c.length
  -- :54-59
  let t := if l ≤ i ∧ 0 < prevS ∧ i < levels - 1 ∧ i ≤ prevS then
      { t with ptrs := t.ptrs ++ [t.ptrs.getLastD 0 + t.off], off := 0 } else t
  -- :61-64, `i + one` is the loop variable
  let one := if l > 0 then 1 else 0
  let t := if l ≤ i + one ∧ i + one < currS + one then { t with off := t.off + 1 } else t
  -- :66-68
  let t := if l ≤ i ∧ 0 < prevS ∧ i ≤ prevS then { t with sizes := t.sizes ++ [n - 1] } else t
  -- :70-73
  if l ≤ i ∧ i ≤ currS then { t with nodes := t.nodes ++ [(c ++ [0]).getD i 0], left := t.left ++ [n] } else t

/-- The loop over the completions, include/completion_trie.hpp:43-79; `prev` and the completions are without terminators,
the common prefix of :50-52 does not include them either. Level `curr_s` is always touched (:70), so a completion with more
terms than levels is an invalid access. -/
def loop (levels : Nat) : Ids → Nat → List Ids → List Level → M (Ids × Nat × List Level)
  | prev, n, [], ts => .ok (prev, n, ts)
  | prev, n, c :: cs, ts =>
      if c.length < levels then
        loop levels c (n + 1) cs (ts.mapIdx fun i t => t.step levels (FC.lcp c prev) prev.length c n i)
      else .error .oob

/-- the loop of include/completion_trie.hpp:96-100 -/
def sumLoop : Nat → List Nat → List Nat → List Nat
  | _, _, [] => []
  | _, [], e :: es => e :: es
  | sum, b :: bs, e :: es => (e - b + sum) :: sumLoop (e - b + sum) bs es

/-- what happens to level `i` after the loop, include/completion_trie.hpp:83-111; `next` is `m_nodes[i + 1].size()` -/
def Level.finish (levels prevS n next i : Nat) (t : Level) : Level :=
  let t := if i < prevS + 1 then { t with sizes := t.sizes ++ [n - 1] } else t
  let t := if i < levels - 1 then { t with ptrs := t.ptrs ++ [next] } else t
  { t with sizes := sumLoop 0 t.left t.sizes, left := t.left.mapIdx fun k v => v - k }

/-- the constructor of the builder, include/completion_trie.hpp:14-114. Without completions there is a size (:83-85) but no left extreme
on the first level, which is an invalid access in :97. -/
def collect (levels : Nat) (cs : List Ids) : M (List Level) := do
  let (prev, n, ts) ← loop levels [] 0 cs (List.replicate levels Level.init)
  if n = 0 then .error .oob
  else .ok (ts.mapIdx fun i t => t.finish levels prev.length n ((ts.map (·.nodes.length)).getD (i + 1) 0) i)

/-- one level of `completion_trie`: `m_nodes[i]`, `m_pointers[i]`, `m_left_extremes[i]`, `m_sizes[i]`,
include/completion_trie.hpp:272-276 -/
structure CLevel where
  nodes : EF
  ptrs : Option EF
  left : EF
  sizes : EF

/-- an `std::vector<uint32_t>` as the range of 64-bit numbers it is converted to -/
def words (xs : List Nat) : List W := xs.map (BitVec.ofNat 64)

/-- `m_pointers[i].build(...)` unless `i` is the last level, include/completion_trie.hpp:138-140 -/
def buildPtrs (levels i : Nat) (t : Level) : M (Option EF) :=
  if i ≠ levels - 1 then do
    let p ← EF.build (words t.ptrs)
    .ok (some p)
  else .ok none

/-- `m_nodes[i].build(...)`, include/completion_trie.hpp:143-147 -/
def buildNodes (ts : List Level) (i : Nat) (t : Level) : M EF :=
  if i ≠ 0 then do
    let up ← rd ts (i - 1)
    EF.buildRuns (words t.nodes) up.ptrs
  else EF.build (words t.nodes)

/-- one iteration of the loop of `build`, include/completion_trie.hpp:137-148 -/
def buildLevel (levels : Nat) (ts : List Level) (i : Nat) : M CLevel := do
  let t ← rd ts i
  let p ← buildPtrs levels i t
  let l ← EF.build (words t.left)
  let s ← EF.build (words t.sizes)
  let n ← buildNodes ts i t
  .ok ⟨n, p, l, s⟩

/-- the builder followed by `build`, include/completion_trie.hpp:14-151; `completion_trie` is the vector of its levels
(`m_size` is in `Index1.numCompl`) -/
def build (levels : Nat) (cs : List Ids) : M (List CLevel) := do
  let ts ← collect levels cs
  tabM (buildLevel levels ts) levels

/-- `m_pointers[i][pos]`, include/completion_trie.hpp:180 -/
def children (t : CLevel) (pos : Nat) : M Range :=
  match t.ptrs with
  | some p => p.pair pos
  | none => .error .oob

/-- the loop of `locate_prefix`, include/completion_trie.hpp:177-181; `none` when it returns. -/
def descend (T : List CLevel) : Nat → Range → Ids → M (Option (Nat × Range))
  | i, r, [] => .ok (some (i, r))
  | i, r, x :: xs => do
      let t ← rd T i
      let pos ← t.nodes.seq.findIn r x
      if pos = NOT_FOUND then .ok none
      else do
        let r ← children t pos
        descend T (i + 1) r xs

/-- `end != begin ? m_left_extremes[i].access(end) + end : r.begin`, include/completion_trie.hpp:191-192 -/
def lastLeft (t : CLevel) (b e rb : Nat) : M Nat :=
  if e ≠ b then do
    let l ← t.left.access e
    .ok (l + e)
  else .ok rb

/-- `(end ? m_sizes[i].access(end - 1) : 0)`, include/completion_trie.hpp:194 -/
def sizeBefore (t : CLevel) (e : Nat) : M Nat :=
  if e ≠ 0 then t.sizes.access (e - 1) else .ok 0

/-- include/completion_trie.hpp:188-195: the completions below the nodes `q` -/
def extent (t : CLevel) (q : Range) : M Range := do
  let b := q.b
  let e := q.e - 1
  let l ← t.left.access b
  let rb := l + b
  let re ← lastLeft t b e rb
  let s ← t.sizes.access e
  let s' ← sizeBefore t e
  .ok ⟨rb, re + (s - s' + 1)⟩

/-- `locate_prefix`, include/completion_trie.hpp:171-200 -/
def locatePrefix (T : List CLevel) (pfx : Ids) (lex : Range) : M Range := do
  let t0 ← rd T 0
  match ← descend T 0 ⟨0, t0.nodes.size⟩ pfx with
  | none => .ok Range.invalid
  | some (i, r) =>
      match T[i]? with
      | none => .ok Range.invalid
      | some t => do
          let q ← t.nodes.seq.findRange r lex
          if q.b = q.e then .ok Range.invalid
          else extent t q

/-- the loop of `is_member`, include/completion_trie.hpp:203-213; `c` with its terminator, `none` for false -/
def memberLoop (T : List CLevel) : Nat → Range → Ids → M Bool
  | _, _, [] => .ok true
  | i, r, x :: xs => do
      let t ← rd T i
      let pos ← t.nodes.seq.findIn r x
      if pos = NOT_FOUND then .ok false
      else if xs = [] then .ok true
      else do
        let r ← children t pos
        memberLoop T (i + 1) r xs

/-- `is_member(c)`, include/completion_trie.hpp:203-213 (`c` with its terminator) -/
def isMember (T : List CLevel) (c : Ids) : M Bool := do
  let t0 ← rd T 0
  memberLoop T 0 ⟨0, t0.nodes.size⟩ c

end Trie
end AC
