import Verif.Model.BitVector
/-!
# Fixed-width vectors, include/compact_vector.hpp
-/
namespace AC

/-- `compact_vector::builder`, data members: include/compact_vector.hpp:212-218. `m_mask` is always
`maskW width` (:84, :100); `m_back` is not represented (only `back()` of the builder reads it, which nothing calls). -/
structure CVB where
  size : Nat
  width : Nat
  curBlock : Nat
  curShift : Nat
  bits : List W
  deriving DecidableEq

/-- `compact_vector`, data members: include/compact_vector.hpp:322-325; `after` is the word of memory that follows the
buffer, which `access` may read -/
structure CV where
  size : Nat
  width : Nat
  mask : W
  bits : List W
  after : W
  deriving DecidableEq

namespace CVB

/-- `builder(n, w)`, include/compact_vector.hpp:81-92; `resize(n, w)` of an empty builder, :94-104, is the same -/
def mk' (n w : Nat) : M CVB :=
  if w = 0 ∨ w > 64 then .error .thrown
  else .ok ⟨n, w, 0, 0, List.replicate (wordsFor (n * w)) 0⟩

/-- `push_back(v)`, include/compact_vector.hpp:144-164, up to the update of the position -/
def pushWords (b : CVB) (v : W) : M (List W × Nat × Nat) := do
  let mask := maskW b.width
  let w ← rd b.bits b.curBlock
  let bits ← wr b.bits b.curBlock ((w &&& ~~~(mask <<< b.curShift)) ||| (v <<< b.curShift))
  let res := 64 - b.curShift
  if res < b.width then do
    let w ← rd bits (b.curBlock + 1)
    let bits ← wr bits (b.curBlock + 1) ((w &&& ~~~(mask >>> res)) ||| (v >>> res))
    .ok (bits, b.curBlock + 1, b.width - res)
  else .ok (bits, b.curBlock, b.curShift + b.width)

/-- `push_back(v)`, include/compact_vector.hpp:144-164 -/
def pushBack (b : CVB) (v : W) : M CVB := do
  let (bits, block, shift) ← b.pushWords v
  if shift = 64 then .ok { b with bits := bits, curBlock := block + 1, curShift := 0 }
  else .ok { b with bits := bits, curBlock := block, curShift := shift }

/-- `set(i, v)`, include/compact_vector.hpp:123-142 -/
def set (b : CVB) (i : Nat) (v : W) : M CVB := do
  let mask := maskW b.width
  let pos := i * b.width
  let block := pos / 64
  let shift := pos % 64
  let w ← rd b.bits block
  let bits ← wr b.bits block ((w &&& ~~~(mask <<< shift)) ||| (v <<< shift))
  let res := 64 - shift
  if res < b.width then do
    let w ← rd bits (block + 1)
    let bits ← wr bits (block + 1) ((w &&& ~~~(mask >>> res)) ||| (v >>> res))
    .ok { b with bits := bits }
  else .ok { b with bits := bits }

/-- `fill(begin, n)`, include/compact_vector.hpp:112-121 -/
def fill (b : CVB) : List W → M CVB
  | [] => .ok b
  | v :: vs => do
      let b ← b.pushBack v
      b.fill vs

end CVB

namespace CVB

/-- a sequence of calls of `set(i, v)`, include/compact_vector.hpp:123-142 -/
def sets (b : CVB) : List (Nat × W) → M CVB
  | [] => .ok b
  | (i, v) :: os => do
      let b ← b.set i v
      b.sets os

/-- `build(cv)`, include/compact_vector.hpp:178-184: the vector, with any content in the word after the buffer -/
def done (b : CVB) (after : W) : CV := ⟨b.size, b.width, maskW b.width, b.bits, after⟩

end CVB

namespace CV

/-- `build(begin, n, w)`, include/compact_vector.hpp:233-238 with `builder::build`, :178-184 -/
def build (vs : List W) (w : Nat) (after : W) : M CV := do
  let b ← CVB.mk' vs.length w
  let b ← b.fill vs
  .ok ⟨b.size, b.width, maskW b.width, b.bits, after⟩

/-- `build(begin, n)`, include/compact_vector.hpp:226-231: the width is that of the largest value; the largest element
of an empty list is an invalid read -/
def buildAuto (vs : List W) (after : W) : M CV :=
  match vs.map BitVec.toNat |>.max? with
  | none => .error .oob
  | some m => build vs (ceilLog2 ((m + 1) % 2 ^ 64)) after

/-- `operator[](i)`, include/compact_vector.hpp:240-249 -/
def get (c : CV) (i : Nat) : M W := do
  let pos := i * c.width
  let block := pos / 64
  let shift := pos % 64
  let w ← rd c.bits block
  if shift + c.width ≤ 64 then .ok ((w >>> shift) &&& c.mask)
  else do
    let w' ← rd c.bits (block + 1)
    .ok ((w >>> shift) ||| ((w' <<< (64 - shift)) &&& c.mask))

/-- `access(pos)`, include/compact_vector.hpp:252-259: an unaligned little-endian read of 8 bytes -/
def access (c : CV) (pos : Nat) : M W := do
  let i := pos * c.width
  let byte := i / 8
  let block := byte / 8
  let off := 8 * (byte % 8)
  let w ← rd (c.bits ++ [c.after]) block
  if off = 0 then .ok ((w >>> (i % 8)) &&& c.mask)
  else do
    let w' ← rd (c.bits ++ [c.after]) (block + 1)
    .ok ((((w >>> off) ||| (w' <<< (64 - off))) >>> (i % 8)) &&& c.mask)

end CV

/-- `compact_vector::enumerator`, data members: include/compact_vector.hpp:47-51, without `m_data` and without
`m_cur_val`, which `read` sets before every use -/
structure CVE where
  i : Nat
  curBlock : Nat
  curShift : Nat
  deriving DecidableEq

namespace CVE

/-- `enumerator(data, i)`, include/compact_vector.hpp:12-17 -/
def mk' (c : CV) (i : Nat) : CVE := ⟨i, i * c.width / 64, i * c.width % 64⟩

/-- `read()`, include/compact_vector.hpp:53-72, up to the update of the position; also `operator*`, `value()` (:19-32),
which call it and return the value -/
def readWords (c : CV) (e : CVE) : M (W × Nat × Nat) := do
  let w ← rd c.bits e.curBlock
  if e.curShift + c.width ≤ 64 then
    .ok ((w >>> e.curShift) &&& c.mask, e.curBlock, e.curShift + c.width)
  else do
    let res := 64 - e.curShift
    let w' ← rd c.bits (e.curBlock + 1)
    .ok ((w >>> e.curShift) ||| ((w' <<< res) &&& c.mask), e.curBlock + 1, c.width - res)

/-- `operator*()`, include/compact_vector.hpp:19-22 with `read`, :53-72 -/
def deref (c : CV) (e : CVE) : M (W × CVE) := do
  let (v, block, shift) ← e.readWords c
  if shift = 64 then .ok (v, { e with curBlock := block + 1, curShift := 0 })
  else .ok (v, { e with curBlock := block, curShift := shift })

/-- `operator++()`, include/compact_vector.hpp:24-27 -/
def inc (e : CVE) : CVE := { e with i := e.i + 1 }

/-- the enumeration of `n` values: `*it; ++it;` repeated -/
def scan (c : CV) : Nat → CVE → M (List W)
  | 0, _ => .ok []
  | n + 1, e => do
      let (v, e) ← e.deref c
      let vs ← scan c n e.inc
      .ok (v :: vs)

end CVE
end AC
