import Verif.Prelude
import Verif.Model.StdLib
/-!
# Binary heap, include/min_heap.hpp

The state is the vector `m_q`; the comparator is `key(l) > key(r)` for all instances (`iterator_comparator`,
include/min_heap.hpp:8-13, `scored_range::greater` and `scored_range_with_list_iterator_comparator`,
include/util_types.hpp:66-68, 108-114).
-/
namespace AC.Heap
variable {α : Type}

/-- `top()`, include/min_heap.hpp:21-23; `front()` of an empty vector is an invalid read -/
def top (q : List α) : M α := rd q 0

/-- `push(t)`, include/min_heap.hpp:30-33 -/
def push (std : StdLib) (key : α → Nat) (q : List α) (t : α) : List α := std.pushHeap key (q ++ [t])

/-- `pop()`, include/min_heap.hpp:35-38 -/
def pop (std : StdLib) (key : α → Nat) (q : List α) : M (List α) :=
  match q with
  | [] => .error .oob
  | _ => .ok (std.popHeap key q).dropLast

/-- `make_heap()`, include/min_heap.hpp:44-46 -/
def makeHeap (std : StdLib) (key : α → Nat) (q : List α) : List α := std.makeHeap key q

/-- the child chosen by `sink`, include/min_heap.hpp:71-72 -/
def child (key : α → Nat) (q : List α) (pos : Nat) : M Nat :=
  let i := 2 * pos + 1
  if i + 1 < q.length then do
    let a ← rd q i
    let b ← rd q (i + 1)
    .ok (if key a > key b then i + 1 else i)
  else .ok i

/-- `sink(pos)`, include/min_heap.hpp:68-77 -/
def sink (key : α → Nat) : Nat → Nat → List α → M (List α)
  | 0, _, _ => .error .diverge
  | fuel + 1, pos, q =>
      if 2 * pos + 1 < q.length then do
        let i ← child key q pos
        let a ← rd q pos
        let b ← rd q i
        if key a > key b then do
          let q ← wr q pos b
          let q ← wr q i a
          sink key fuel i q
        else .ok q
      else .ok q

/-- `heapify()`, include/min_heap.hpp:48-50 -/
def heapify (key : α → Nat) (q : List α) : M (List α) := sink key (q.length + 1) 0 q

end AC.Heap
