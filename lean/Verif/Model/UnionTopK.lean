import Verif.Model.UnsortedList
/-!
# The smallest documents of a union of posting lists: `minimal_docids::topk` (include/minimal_docids.hpp) and `heap_topk`
(include/autocomplete_common.hpp)
-/
namespace AC

namespace Union
variable {α : Type}

/-- `if (!has_next) q.pop();`, include/minimal_docids.hpp:50-52 and 61-63, include/autocomplete_common.hpp:65 -/
def popUnless (std : StdLib) (key : α → Nat) (hasNext : Bool) (q : List α) : M (List α) :=
  if hasNext then .ok q else Heap.pop std key q

/-- The loop common to `minimal_docids::topk`, include/minimal_docids.hpp:38-91, and `heap_topk`,
include/autocomplete_common.hpp:55-67: the key of an element of the queue is its smallest document that has not been considered;
`advance` is what the loop does after having considered the document at the top, include/minimal_docids.hpp:48-90 and
include/autocomplete_common.hpp:64-66. The result is the buffer and the number of results. -/
def loop (std : StdLib) (key : α → Nat) (advance : List α → M (List α)) (k : Nat) :
    Nat → List α → List Nat → Nat → M (List Nat × Nat)
  | 0, _, _, _ => .error .diverge
  | fuel + 1, q, buf, i =>
      match q with
      | [] => .ok (buf, i)
      | _ :: _ => do
          let z ← Heap.top q
          let doc := key z
          if std.binarySearch (buf.take i) doc then do
            let q ← advance q
            loop std key advance k fuel q buf i
          else do
            let buf ← wr buf i (id32 doc)
            if i + 1 = k then .ok (buf, i + 1)
            else do
              let q ← advance q
              loop std key advance k fuel q buf (i + 1)

end Union

namespace HeapTopK

/-- `z.next(); if (!z.has_next()) q.pop(); q.heapify();` on the top `z`, include/autocomplete_common.hpp:64-66. The comparator is
`iterator_comparator`, include/min_heap.hpp:8-13. -/
def advance (std : StdLib) (ii : InvIdx) (q : List CEI) : M (List CEI) := do
  let z ← Heap.top q
  let z ← z.next ii.data
  let q ← wr q 0 z
  let q ← Union.popUnless std CEI.value z.hasNext q
  Heap.heapify CEI.value q

/-- the loop that fills the queue, include/autocomplete_common.hpp:48-50 (also include/autocomplete3.hpp:208-210), with the number
of iterations left -/
def fill (ii : InvIdx) : Nat → Nat → M (List CEI)
  | 0, _ => .ok []
  | n + 1, term => do
      let it ← ii.iteratorOf term
      let q ← fill ii n (term + 1)
      .ok (it :: q)

/-- `heap_topk(index, r, k, topk_scores)`, include/autocomplete_common.hpp:36-70, for the range of term identifiers
`[begin, end']`; each iteration of the loop moves forward in one of the lists, so that there are at most `num_integers` -/
def topk (std : StdLib) (ii : InvIdx) (begin end' k : Nat) (buf : List Nat) : M (List Nat × Nat) := do
  let q ← fill ii (end' + 1 - begin) begin
  Union.loop std CEI.value (advance std ii) k (ii.numIntegers + 1) (Heap.makeHeap std CEI.value q) buf 0

end HeapTopK

/-- `scored_range_with_list_iterator`, include/util_types.hpp:71-106: the iterator is there when `m_open` -/
structure RI where
  sr : SR
  it : Option CEI
  deriving DecidableEq

namespace MinDocs

/-- `minimum()`, include/util_types.hpp:95-97 -/
def key (e : RI) : Nat :=
  match e.it with
  | some it => id32 it.value
  | none => e.sr.val

/-- a range that is not open, include/util_types.hpp:75-77 -/
def closed (s : SR) : RI := ⟨s, none⟩

/-- the rest of the body of the loop, include/minimal_docids.hpp:48-90 -/
def advance (std : StdLib) (ii : InvIdx) (u : UL) (q : List RI) : M (List RI) := do
  let min ← Heap.top q
  match min.it with
  | some it => do
      let it ← it.next ii.data
      let q ← wr q 0 ⟨min.sr, some it⟩
      let q ← Union.popUnless std key it.hasNext q
      Heap.heapify key q
  | none => do
      let it ← ii.iterator min.sr.pos
      let it ← it.next ii.data
      let q ← wr q 0 ⟨min.sr, some it⟩
      let q ← Union.popUnless std key it.hasNext q
      let q ← Heap.heapify key q
      let q ← UL.pushLeft std key closed u min.sr.lo min.sr.pos q
      UL.pushRight std key closed u min.sr.pos min.sr.hi q

/-- `topk(index, r, k, topk_scores)`, include/minimal_docids.hpp:27-94, for the range of terms `[begin, end')`; each iteration of
the loop moves forward in one of the lists, so that there are at most `num_integers` -/
def topk (std : StdLib) (ii : InvIdx) (u : UL) (begin end' k : Nat) (buf : List Nat) : M (List Nat × Nat) := do
  let pos ← CT.rmq u.rmq begin (end' - 1)
  let val ← u.access pos
  Union.loop std key (advance std ii u) k (ii.numIntegers + 1)
    (Heap.push std key [] (closed ⟨begin, end' - 1, pos, val⟩)) buf 0

end MinDocs
end AC
