import Verif.Model.CompactVector
import Verif.Model.EliasFano
import Verif.Model.InvertedIndex
/-!
# Forward index, include/compact_forward_index.hpp
-/
namespace AC

/-- `compact_forward_index`, data members: include/compact_forward_index.hpp:152-155 -/
structure FwdIdx where
  numIntegers : Nat
  numTerms : Nat
  pointers : EF
  data : CV
  deriving DecidableEq

/-- `forward_list_iterator_type`, data members: include/compact_forward_index.hpp:100-103, without `m_cv` -/
structure FwdIt where
  base : Nat
  n : Nat
  i : Nat
  deriving DecidableEq

namespace FwdIdx

/-- the loop over the documents of the builder, include/compact_forward_index.hpp:26-39: `m_pointers` and `terms` -/
def readLists : List (List Nat) → Nat → List Nat → List Nat → List Nat × List Nat
  | [], _, ptrs, terms => (ptrs, terms)
  | l :: ls, size, ptrs, terms => readLists ls (size + l.length) (ptrs ++ [size + l.length]) (terms ++ l)

/-- `builder(params)`, include/compact_forward_index.hpp:13-44, and `build`, 53-59, on the lists read from the `.forward` file
(one for each document of the universe); `after` is the memory that follows the buffer -/
def build (numTerms : Nat) (lists : List (List Nat)) (after : W) : M FwdIdx := do
  let (ptrs, terms) := readLists lists 0 [0] []
  let data ← CV.build (toWords terms) (ceilLog2 (numTerms + 1)) after
  let p ← EF.build (toWords ptrs)
  .ok ⟨terms.length, numTerms, p, data⟩

/-- `iterator(doc_id)`, include/compact_forward_index.hpp:106-111 -/
def iterator (fi : FwdIdx) (doc : Nat) : M FwdIt := do
  let pos ← fi.pointers.access doc
  let e ← fi.pointers.access (doc + 1)
  .ok ⟨pos, e - pos, 0⟩

/-- `num_docs()`, include/compact_forward_index.hpp:125-127 -/
def numDocs (fi : FwdIdx) : Nat := fi.pointers.size - 1

end FwdIdx

namespace FwdIt

/-- `operator*`, include/compact_forward_index.hpp:86-88 -/
def deref (fi : FwdIdx) (it : FwdIt) : M Nat := do
  let v ← fi.data.get (it.base + it.i)
  .ok (id32 v.toNat)

/-- `operator++`, include/compact_forward_index.hpp:82-84 -/
def inc (it : FwdIt) : FwdIt := { it with i := it.i + 1 }

/-- the loop of `intersects`, include/compact_forward_index.hpp:90-97, from `i`, with `k` iterations left -/
def intersectsLoop (fi : FwdIdx) (it : FwdIt) (r : Range) : Nat → Nat → M Bool
  | 0, _ => .ok false
  | k + 1, i => do
      let v ← fi.data.get (it.base + i)
      if r.contains v.toNat then .ok true else it.intersectsLoop fi r k (i + 1)

/-- `intersects(r)`, include/compact_forward_index.hpp:90-97 -/
def intersects (fi : FwdIdx) (it : FwdIt) (r : Range) : M Bool := it.intersectsLoop fi r it.n 0

/-- enumeration of `n` terms: `*it; ++it;` repeated -/
def scan (fi : FwdIdx) : Nat → FwdIt → M (List Nat)
  | 0, _ => .ok []
  | n + 1, it => do
      let v ← it.deref fi
      let vs ← scan fi n it.inc
      .ok (v :: vs)

end FwdIt

/-- `intersects(doc_id, r)`, include/compact_forward_index.hpp:113-115 -/
def FwdIdx.intersects (fi : FwdIdx) (doc : Nat) (r : Range) : M Bool := do
  let it ← fi.iterator doc
  it.intersects fi r

end AC
