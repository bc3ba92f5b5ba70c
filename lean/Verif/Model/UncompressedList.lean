import Verif.Model.BitVector
import Verif.Model.Constants
/-!
# Lists of integers stored as they are: include/uncompressed_list.hpp

No index type of include/types.hpp uses this class; it is an alternative to `compact_ef` as the list type of the inverted
indexes.
-/
namespace AC

/-- `uncompressed_list<UintType>::iterator`, data members: include/uncompressed_list.hpp:116-120. `bits` is `BITS`, the size of
`UintType` in bits (:10); `m_data` is represented by the offset from which the constructor computes it. `m_id` is not
represented: every call that sets it returns it, and it cannot be read otherwise. -/
structure ULI where
  bits : Nat
  off : Nat
  univ : Nat
  size : Nat
  pos : Nat
  deriving DecidableEq

namespace ULI

/-- `build(bvb, begin, universe, n)`, include/uncompressed_list.hpp:14-21 -/
def build (bits : Nat) : BVB → List Nat → BVB
  | b, [] => b
  | b, x :: xs => build bits (b.appendBits (BitVec.ofNat 64 x) bits) xs

/-- `iterator(bv, offset, universe, n)`, include/uncompressed_list.hpp:26-36 -/
def mk' (bits off univ n : Nat) : ULI := ⟨bits, off / 8 * 8, univ, n, 0⟩

/-- `m_data[i]`: the bytes of a little-endian `UintType`. That the address is a multiple of the alignment of `UintType`, which C++
requires and the code does not ensure, is not represented. -/
def data (v : BV) (it : ULI) (i : Nat) : M Nat := do
  let w ← v.getBits (it.off + i * it.bits) it.bits
  .ok w.toNat

/-- `m_universe` converted to `UintType` -/
def last (it : ULI) : Nat := it.univ % 2 ^ it.bits

/-- `has_next()`, include/uncompressed_list.hpp:38-40 -/
def hasNext (it : ULI) : Bool := it.pos < it.size

/-- `operator++()`, include/uncompressed_list.hpp:42-44 -/
def inc (it : ULI) : ULI := { it with pos := it.pos + 1 }

/-- `operator*()`, include/uncompressed_list.hpp:46-49 -/
def deref (v : BV) (it : ULI) : M Nat := it.data v it.pos

/-- `access(i)`, include/uncompressed_list.hpp:51-56 -/
def access (v : BV) (it : ULI) (i : Nat) : M (Nat × ULI) := do
  let x ← it.data v i
  .ok (x, { it with pos := i })

/-- the private `next_geq_by_scan(lo, hi, lower_bound)`, include/uncompressed_list.hpp:122-135; `n` iterations are left, `i` is the
loop variable, so that `i + n` is `hi + 1` -/
def scanLoop (v : BV) (it : ULI) (x : Nat) : Nat → Nat → M (Nat × ULI)
  | 0, i => .ok (it.last, { it with pos := i })
  | n + 1, i => do
      let val ← it.data v i
      if val ≥ x then .ok (val, { it with pos := i }) else scanLoop v it x n (i + 1)

/-- `size() - 1`, a 64-bit number -/
def hi (it : ULI) : Nat := if it.size = 0 then 2 ^ 64 - 1 else it.size - 1

/-- `next_geq_by_scan(lower_bound)`, include/uncompressed_list.hpp:58-60. When `m_position` is beyond `hi` the position becomes
`hi + 1`. -/
def nextGeqByScan (v : BV) (it : ULI) (x : Nat) : M (Nat × ULI) :=
  if it.pos ≤ it.hi then it.scanLoop v x (it.hi + 1 - it.pos) it.pos
  else .ok (it.last, { it with pos := it.hi + 1 })

/-- the loop of `next_geq`, include/uncompressed_list.hpp:66-86; `fuel` bounds the iterations -/
def geqLoop (v : BV) (x : Nat) : Nat → Nat → Nat → ULI → M (Nat × ULI)
  | 0, _, _, _ => .error .diverge
  | fuel + 1, lo, hi, it =>
      if lo ≤ hi then
        if hi - lo ≤ 8 then it.scanLoop v x (hi + 1 - lo) lo
        else do
          let pos := (lo + hi) / 2
          let it := { it with pos := pos }
          let val ← it.data v pos
          if val > x then do
            let hi := if pos ≠ 0 then pos - 1 else 0
            let y ← it.data v hi
            if x > y then .ok (val, it) else geqLoop v x fuel lo hi it
          else if val < x then geqLoop v x fuel (pos + 1) hi it
          else .ok (val, it)
      else .ok (it.last, it)

/-- `next_geq(lower_bound)`, include/uncompressed_list.hpp:62-90 -/
def nextGeq (v : BV) (it : ULI) (x : Nat) : M (Nat × ULI) := geqLoop v x (it.size + 2) it.pos it.hi it

/-- `next()`, include/uncompressed_list.hpp:92-96 -/
def next (v : BV) (it : ULI) : M (Nat × ULI) :=
  if it.pos + 1 ≠ it.size then do
    let x ← it.data v (it.pos + 1)
    .ok (x, { it with pos := it.pos + 1 })
  else .ok (it.last, { it with pos := it.pos + 1 })

/-- the loop of `intersects(r)`, include/uncompressed_list.hpp:99-103, with the number of iterations left -/
def meetsLoop (v : BV) (it : ULI) (r : Range) : Nat → Nat → M Bool
  | 0, _ => .ok false
  | n + 1, i => do
      let val ← it.data v i
      if val > r.e then .ok false
      else if val ≥ r.b ∧ val ≤ r.e then .ok true
      else meetsLoop v it r n (i + 1)

/-- `intersects(r)`, include/uncompressed_list.hpp:98-105 -/
def intersects (v : BV) (it : ULI) (r : Range) : M Bool := it.meetsLoop v r it.size 0

end ULI
end AC
