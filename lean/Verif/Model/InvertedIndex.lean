import Verif.Model.CompactEf
import Verif.Model.IntegerCodes
import Verif.Model.StdLib
/-!
# Inverted index, include/inverted_index.hpp, with `ListType = ef::compact_ef` (include/types.hpp:27)
-/
namespace AC

/-- the lists of 64-bit numbers given to `ef_sequence::build` -/
def toWords (xs : List Nat) : List W := xs.map (BitVec.ofNat 64)

/-- conversion to `id_type` (`uint32_t`) -/
def id32 (x : Nat) : Nat := x % 2 ^ 32

/-- `inverted_index`, data members: include/inverted_index.hpp:203-206 -/
structure InvIdx where
  numIntegers : Nat
  numDocs : Nat
  pointers : EF
  data : BV
  deriving DecidableEq

/-- `inverted_index::builder`, data members: include/inverted_index.hpp:89-93 -/
structure InvBuilder where
  numIntegers : Nat
  numDocs : Nat
  pointers : List Nat
  minimal : List Nat
  bvb : BVB
  deriving DecidableEq

namespace InvBuilder

/-- one iteration of the loop over the terms, include/inverted_index.hpp:35-55, on the list read from the file; `front()` of
an empty list is an invalid read. `is_byte_aligned` is false. -/
def add (b : InvBuilder) (list : List Nat) : M InvBuilder := do
  let x ← rd list 0
  let bvb ← writeGammaNonzero b.bvb (BitVec.ofNat 64 list.length)
  let bvb ← CEF.build bvb b.numDocs list
  .ok { b with
    numIntegers := b.numIntegers + list.length
    minimal := b.minimal ++ [x]
    bvb := bvb
    pointers := b.pointers ++ [bvb.size] }

/-- the loop over the terms, include/inverted_index.hpp:35-55 -/
def addAll (b : InvBuilder) : List (List Nat) → M InvBuilder
  | [] => .ok b
  | l :: ls => do
      let b ← b.add l
      b.addAll ls

/-- `builder(params)`, include/inverted_index.hpp:17-66, on the lists read from the `.inverted` file (as many as there are
terms) -/
def mk' (univ : Nat) (lists : List (List Nat)) : M InvBuilder := do
  let b ← addAll ⟨0, univ, [0], [], BVB.empty⟩ lists
  .ok { b with pointers := b.pointers.dropLast }

/-- `build(ii)`, include/inverted_index.hpp:80-86; `after` is the memory that follows the buffer -/
def build (b : InvBuilder) (after : W) : M InvIdx := do
  let p ← EF.build (toWords b.pointers)
  .ok ⟨b.numIntegers, b.numDocs, p, BV.build b.bvb after⟩

end InvBuilder

namespace InvIdx

/-- `iterator(term_id)`, include/inverted_index.hpp:98-105 -/
def iterator (ii : InvIdx) (term : Nat) : M CEI := do
  let offset ← ii.pointers.access term
  let (n, it) ← readGammaNonzero ii.data (BI.mk' offset)
  CEI.mk' ii.data it.pos ii.numDocs n.toNat

/-- `iterator(id - 1)` for an id of a term, a 32-bit number: include/inverted_index.hpp:138-141,
include/autocomplete_common.hpp:48-50, include/autocomplete.hpp:178. The id 0 is that of no term, and `id - 1` is then
beyond the terms. -/
def iteratorOf (ii : InvIdx) (id : Nat) : M CEI := if id = 0 then .error .oob else ii.iterator (id - 1)

/-- `num_terms()`, include/inverted_index.hpp:111-113 -/
def numTerms (ii : InvIdx) : Nat := ii.pointers.size

end InvIdx

/-- `intersection_iterator_type`, data members: include/inverted_index.hpp:170-173, without the constant `m_num_docs` -/
structure Inter where
  candidate : Nat
  i : Nat
  its : List CEI
  deriving DecidableEq

namespace Inter

/-- the loop of `next()`, include/inverted_index.hpp:175-186, with the last value of `val` -/
def nextLoop (ii : InvIdx) : Nat → Nat → Inter → M Inter
  | 0, _, _ => .error .diverge
  | fuel + 1, val, s =>
      if val < ii.numDocs ∧ s.i ≠ s.its.length then do
        let it ← rd s.its s.i
        let it ← it.nextGeq ii.data s.candidate
        let its ← wr s.its s.i it
        let val := id32 it.value
        if val ≠ s.candidate then nextLoop ii fuel val ⟨val, 0, its⟩
        else nextLoop ii fuel val ⟨s.candidate, s.i + 1, its⟩
      else .ok s

/-- `next()`, include/inverted_index.hpp:175-186; at most `size` calls are made for each candidate -/
def next (ii : InvIdx) (s : Inter) : M Inter :=
  nextLoop ii ((ii.numDocs + 2) * (s.its.length + 1) + 1) 0 s

/-- the iterators of the terms, include/inverted_index.hpp:138-141 -/
def iterators (ii : InvIdx) : List Nat → M (List CEI)
  | [] => .ok []
  | id :: ids => do
      let it ← ii.iteratorOf id
      let its ← iterators ii ids
      .ok (it :: its)

/-- `intersection_iterator_type(ii, term_ids)`, include/inverted_index.hpp:134-152 -/
def mk' (std : StdLib) (ii : InvIdx) (ids : List Nat) : M Inter := do
  let its ← iterators ii ids
  let its := std.sort (fun it : CEI => it.off.n) its
  let it ← rd its 0
  let it ← it.access ii.data 0
  let its ← wr its 0 it
  next ii ⟨id32 it.value, 1, its⟩

/-- `has_next()`, include/inverted_index.hpp:154-156 -/
def hasNext (ii : InvIdx) (s : Inter) : Bool := s.candidate < ii.numDocs

/-- `operator++`, include/inverted_index.hpp:162-167 -/
def inc (ii : InvIdx) (s : Inter) : M Inter := do
  let it ← rd s.its 0
  let it ← it.next ii.data
  let its ← wr s.its 0 it
  next ii ⟨id32 it.value, 1, its⟩

/-- `for (; it.has_next(); ++it)`: the documents enumerated (the loop of include/autocomplete.hpp:194-203 and others) -/
def collect (ii : InvIdx) : Nat → Inter → M (List Nat)
  | 0, _ => .error .diverge
  | fuel + 1, s =>
      if s.hasNext ii then do
        let s' ← s.inc ii
        let ds ← collect ii fuel s'
        .ok (s.candidate :: ds)
      else .ok []

end Inter

end AC
