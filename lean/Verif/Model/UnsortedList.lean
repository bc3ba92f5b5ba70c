import Verif.Model.CartesianTree
import Verif.Model.CompactVector
import Verif.Model.MinHeap
import Verif.Model.InvertedIndex
/-!
# Lists with a range-minimum structure: include/unsorted_list.hpp

`minimal_docids` (include/minimal_docids.hpp) has the same data members, the same `build`, `size` and private `rmq`.
-/
namespace AC

/-- `unsorted_list`, data members: include/unsorted_list.hpp:131-133, and `minimal_docids`,
include/minimal_docids.hpp:112-115. The queue `m_q` is emptied before every use, so that it is a local variable here. -/
structure UL where
  rmq : BP
  list : CV

/-- `scored_range`, include/util_types.hpp:61-69: the range `[lo, hi]`, the position of its minimum and its minimum -/
structure SR where
  lo : Nat
  hi : Nat
  pos : Nat
  val : Nat
  deriving DecidableEq

namespace UL

/-- `build(list)`, include/unsorted_list.hpp:14-19 and include/minimal_docids.hpp:20-25; `after1` and `after2` are the words
that follow the buffers in memory -/
def build (list : List Nat) (after1 after2 : W) : M UL := do
  let t ← CT.build list after1
  let c ← CV.buildAuto (toWords list) after2
  .ok ⟨t, c⟩

/-- `size()`, include/unsorted_list.hpp:82-84, include/minimal_docids.hpp:96-98 -/
def size (u : UL) : Nat := u.list.size

/-- `m_list.access(i)` converted to `id_type` -/
def access (u : UL) (i : Nat) : M Nat := do
  let x ← u.list.access i
  .ok (id32 x.toNat)

/-- the loop of the private `rmq(lo, hi)`, include/unsorted_list.hpp:138-144, include/minimal_docids.hpp:120-126, with the number
of iterations left -/
def scanLoop (u : UL) : Nat → Nat → Nat → Nat → M Nat
  | 0, _, pos, _ => .ok pos
  | n + 1, i, pos, min => do
      let val ← u.access i
      if val < min then scanLoop u n (i + 1) i val else scanLoop u n (i + 1) pos min

/-- the private `rmq(lo, hi)`, include/unsorted_list.hpp:135-146, include/minimal_docids.hpp:117-128 -/
def scan (u : UL) (lo hi : Nat) : M Nat := u.scanLoop (hi + 1 - lo) lo lo (2 ^ 32 - 1)

/-- the choice between the two, include/unsorted_list.hpp:57-61 and 69-73, include/minimal_docids.hpp:70-74 and 82-86;
`SCAN_THRESHOLD` is 64. Positions are not reduced to `uint32_t`: they are smaller than the size of the list. -/
def minPos (u : UL) (lo hi : Nat) : M Nat := if hi - lo ≤ 64 then u.scan lo hi else CT.rmq u.rmq lo hi

/-- the range `left` or `right`, include/unsorted_list.hpp:55-62 and 67-74, include/minimal_docids.hpp:68-75 and 80-87 -/
def sub (u : UL) (lo hi : Nat) : M SR := do
  let pos ← u.minPos lo hi
  let val ← u.access pos
  .ok ⟨lo, hi, pos, val⟩

variable {α : Type}

/-- include/unsorted_list.hpp:54-64, include/minimal_docids.hpp:67-77; `wrap` makes an element of the queue of a range -/
def pushLeft (std : StdLib) (key : α → Nat) (wrap : SR → α) (u : UL) (lo pos : Nat) (q : List α) : M (List α) :=
  if pos > 0 ∧ pos - 1 ≥ lo then do
    let s ← u.sub lo (pos - 1)
    .ok (Heap.push std key q (wrap s))
  else .ok q

/-- include/unsorted_list.hpp:66-76, include/minimal_docids.hpp:79-89; `size()` is not zero,
since `pos` is a position of the list -/
def pushRight (std : StdLib) (key : α → Nat) (wrap : SR → α) (u : UL) (pos hi : Nat) (q : List α) : M (List α) :=
  if pos < u.size - 1 ∧ hi ≥ pos + 1 then do
    let s ← u.sub (pos + 1) hi
    .ok (Heap.push std key q (wrap s))
  else .ok q

/-- the loop of `topk`, include/unsorted_list.hpp:42-77: the buffer and the number of results -/
def topkLoop (std : StdLib) (u : UL) (k : Nat) (unique : Bool) : Nat → List SR → List Nat → Nat → M (List Nat × Nat)
  | 0, _, _, _ => .error .diverge
  | _ + 1, [], buf, i => .ok (buf, i)
  | fuel + 1, q@(_ :: _), buf, i => do
      let min ← Heap.top q
      if !unique || !std.binarySearch (buf.take i) min.val then do
        let buf ← wr buf i min.val
        if i + 1 = k then .ok (buf, i + 1)
        else do
          let q ← Heap.pop std SR.val q
          let q ← pushLeft std SR.val id u min.lo min.pos q
          let q ← pushRight std SR.val id u min.pos min.hi q
          topkLoop std u k unique fuel q buf (i + 1)
      else do
        let q ← Heap.pop std SR.val q
        let q ← pushLeft std SR.val id u min.lo min.pos q
        let q ← pushRight std SR.val id u min.pos min.hi q
        topkLoop std u k unique fuel q buf i

/-- the loop that reports everything in the range, include/unsorted_list.hpp:26-28, with the number of iterations left -/
def copyLoop (u : UL) (lo : Nat) : Nat → Nat → List Nat → M (List Nat)
  | 0, _, buf => .ok buf
  | n + 1, i, buf => do
      let x ← u.access (lo + i)
      let buf ← wr buf i x
      copyLoop u lo n (i + 1) buf

/-- `topk(r, k, topk, unique)`, include/unsorted_list.hpp:21-80, for the range `[begin, end')` with `begin <= end'`:
the buffer after the call and the number of results. `range_len` is a `uint32_t`: not reduced here, ranges are within a list whose
size is one. -/
def topk (std : StdLib) (u : UL) (begin end' k : Nat) (unique : Bool) (buf : List Nat) : M (List Nat × Nat) :=
  let len := end' - begin
  if len ≤ k then do
    let buf ← u.copyLoop begin len 0 buf
    .ok (std.sort id (buf.take len) ++ buf.drop len, len)
  else do
    let pos ← CT.rmq u.rmq begin (end' - 1)
    let val ← u.access pos
    topkLoop std u k unique (len + 1) (Heap.push std SR.val [] ⟨begin, end' - 1, pos, val⟩) buf 0

end UL
end AC
