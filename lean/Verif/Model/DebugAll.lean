import Verif.Model.DebugSearch
import Verif.Model.DebugStore
import Verif.Model.DebugRmq
/-!
# The index types 1, 2 and 3, built with all assertions

The functions of Model/DebugSearch.lean with the assertions of the structures below them as well: include/bit_vector.hpp, include/compact_vector.hpp,
include/ef, include/succinct_rmq, include/integer_codes.hpp and include/util.hpp (Model/DebugStore.lean, Model/DebugRmq.lean). The names end with `A`.
`uint_vec` is not used by these types but for the pointers of the dictionaries, which are part of Model/DebugDict.lean.
-/
namespace AC

/-! ## Integer codes -/

/-- `fill_buf`, include/bit_vector.hpp:62-65 with `get_word64`, :290-298 -/
def BI.fillBufA (v : BV) (b : BI) : M BI := do
  let w ← v.getWord64D b.pos
  .ok { b with buf := w, avail := 64 }

/-- `if (m_avail < len) fill_buf();`, include/bit_vector.hpp:25-27 -/
def BI.refillA (v : BV) (b : BI) (len : Nat) : M BI :=
  if b.avail < len then b.fillBufA v else .ok b

/-- `get_bits(len)`, include/bit_vector.hpp:24-38 -/
def BI.getBitsA (v : BV) (b : BI) (len : Nat) : M (W × BI) := do
  let b ← b.refillA v len
  if len ≠ 64 then
    .ok (b.buf &&& (((1 : W) <<< len) - 1), ⟨b.pos + len, b.buf >>> len, b.avail - len⟩)
  else .ok (b.buf, ⟨b.pos + len, b.buf, b.avail - len⟩)

/-- the loop of `skip_zeros`, include/bit_vector.hpp:42-47 -/
def BI.skipLoopA (v : BV) : Nat → Nat → BI → M (Nat × BI)
  | 0, _, _ => .error .diverge
  | fuel + 1, zs, b =>
      if b.buf = 0 then do
        let pos := b.pos + b.avail
        let zs := zs + b.avail
        let b ← fillBufA v { b with pos := pos, avail := 0 }
        skipLoopA v fuel zs b
      else .ok (zs, b)

/-- `skip_zeros()`, include/bit_vector.hpp:40-55 with `util::lsb`, include/util.hpp:220-225 -/
def BI.skipZerosA (v : BV) (b : BI) : M (Nat × BI) := do
  let (zs, b) ← skipLoopA v (v.bits.length + 2) 0 b
  check (b.buf ≠ 0)
  let l := (b.buf.lsb).getD 0
  .ok (zs + l, ⟨b.pos + (l + 1), (b.buf >>> l) >>> 1, (b.avail + (2 ^ 64 - (l + 1))) % 2 ^ 64⟩)

/-- `write_gamma(bvb, n)`, include/integer_codes.hpp:8-14 with `util::msb`, include/util.hpp:190-197 -/
def writeGammaA (bvb : BVB) (n : W) : M BVB := do
  let nn := n + 1
  let l ← msbNatD nn.toNat
  let hb := (1 : W) <<< l
  let bvb ← bvb.appendBitsD hb (l + 1)
  bvb.appendBitsD (nn ^^^ hb) l

/-- `write_gamma_nonzero`, include/integer_codes.hpp:16-19 -/
def writeGammaNonzeroA (bvb : BVB) (n : W) : M BVB := do
  check (0 < n.toNat)
  writeGammaA bvb (n - 1)

/-- `read_gamma(it)`, include/integer_codes.hpp:21-24 -/
def readGammaA (v : BV) (it : BI) : M (W × BI) := do
  let (l, it) ← it.skipZerosA v
  let (x, it) ← it.getBitsA v l
  .ok ((x ||| ((1 : W) <<< l)) - 1, it)

/-- `read_gamma_nonzero`, include/integer_codes.hpp:26-28 -/
def readGammaNonzeroA (v : BV) (it : BI) : M (W × BI) := do
  let (x, it) ← readGammaA v it
  .ok (x + 1, it)

/-! ## Building -/

/-- `ceil_log2(x)`, include/util.hpp:227-229 with `util::msb`, :190-197 -/
def ceilLog2A (x : Nat) : M Nat :=
  if x > 1 then do
    let l ← msbNatD (x - 1)
    .ok (l + 1)
  else .ok 0

/-- `build(begin, n)`, include/compact_vector.hpp:226-231 -/
def CV.buildAutoA (vs : List W) (after : W) : M CV :=
  match vs.map BitVec.toNat |>.max? with
  | none => .error .oob
  | some m => do
      let w ← ceilLog2A ((m + 1) % 2 ^ 64)
      CV.buildD vs w after

/-- `build(list)`, include/unsorted_list.hpp:14-19, include/minimal_docids.hpp:20-25 -/
def UL.buildA (list : List Nat) (after1 after2 : W) : M UL := do
  let t ← CT.buildD list after1
  let c ← CV.buildAutoA (toWords list) after2
  .ok ⟨t, c⟩

namespace Trie

/-- `m_pointers[i].build(...)` unless `i` is the last level, include/completion_trie.hpp:138-140 -/
def buildPtrsA (levels i : Nat) (t : Level) : M (Option EF) :=
  if i ≠ levels - 1 then do
    let p ← EF.buildD (words t.ptrs)
    .ok (some p)
  else .ok none

/-- `m_nodes[i].build(...)`, include/completion_trie.hpp:143-147 -/
def buildNodesA (ts : List Level) (i : Nat) (t : Level) : M EF :=
  if i ≠ 0 then do
    let up ← rd ts (i - 1)
    EF.buildRunsD (words t.nodes) up.ptrs
  else EF.buildD (words t.nodes)

/-- one iteration of the loop of `build`, include/completion_trie.hpp:137-148 -/
def buildLevelA (levels : Nat) (ts : List Level) (i : Nat) : M CLevel := do
  let t ← rd ts i
  let p ← buildPtrsA levels i t
  let l ← EF.buildD (words t.left)
  let s ← EF.buildD (words t.sizes)
  let n ← buildNodesA ts i t
  .ok ⟨n, p, l, s⟩

/-- the builder followed by `build`, include/completion_trie.hpp:14-151; the constructor of the builder, :14-114, asserts nothing -/
def buildA (levels : Nat) (cs : List Ids) : M (List CLevel) := do
  let ts ← collect levels cs
  tabM (buildLevelA levels ts) levels

end Trie

namespace InvBuilder

/-- one iteration of the loop over the terms, include/inverted_index.hpp:35-55 -/
def addA (b : InvBuilder) (list : List Nat) : M InvBuilder := do
  let x ← rd list 0
  let bvb ← writeGammaNonzeroA b.bvb (BitVec.ofNat 64 list.length)
  let bvb ← CEF.buildD bvb b.numDocs list
  .ok { b with
    numIntegers := b.numIntegers + list.length
    minimal := b.minimal ++ [x]
    bvb := bvb
    pointers := b.pointers ++ [bvb.size] }

/-- the loop over the terms, include/inverted_index.hpp:35-55 -/
def addAllA (b : InvBuilder) : List (List Nat) → M InvBuilder
  | [] => .ok b
  | l :: ls => do
      let b ← b.addA l
      b.addAllA ls

/-- `builder(params)`, include/inverted_index.hpp:17-66 -/
def mkA (univ : Nat) (lists : List (List Nat)) : M InvBuilder := do
  let b ← addAllA ⟨0, univ, [0], [], BVB.empty⟩ lists
  .ok { b with pointers := b.pointers.dropLast }

/-- `build(ii)`, include/inverted_index.hpp:80-86 -/
def buildA (b : InvBuilder) (after : W) : M InvIdx := do
  let p ← EF.buildD (toWords b.pointers)
  .ok ⟨b.numIntegers, b.numDocs, p, BV.build b.bvb after⟩

end InvBuilder

/-- `builder(params)` and `build`, include/compact_forward_index.hpp:13-59 -/
def FwdIdx.buildA (numTerms : Nat) (lists : List (List Nat)) (after : W) : M FwdIdx := do
  checkLists lists
  let (ptrs, terms) := readLists lists 0 [0] []
  let w ← ceilLog2A (numTerms + 1)
  let data ← CV.buildD (toWords terms) w after
  let p ← EF.buildD (toWords ptrs)
  .ok ⟨terms.length, numTerms, p, data⟩

/-! ## Lists with a range-minimum structure -/

namespace UL

/-- `m_list.access(i)` -/
def accessA (u : UL) (i : Nat) : M Nat := do
  let x ← u.list.accessD i
  .ok (id32 x.toNat)

/-- the loop of the private `rmq(lo, hi)`, include/unsorted_list.hpp:138-144, include/minimal_docids.hpp:120-126 -/
def scanLoopA (u : UL) : Nat → Nat → Nat → Nat → M Nat
  | 0, _, pos, _ => .ok pos
  | n + 1, i, pos, min => do
      let val ← u.accessA i
      if val < min then scanLoopA u n (i + 1) i val else scanLoopA u n (i + 1) pos min

/-- the private `rmq(lo, hi)`, include/unsorted_list.hpp:135-146, include/minimal_docids.hpp:117-128 -/
def scanA (u : UL) (lo hi : Nat) : M Nat := u.scanLoopA (hi + 1 - lo) lo lo (2 ^ 32 - 1)

/-- the choice between the two, include/unsorted_list.hpp:57-61 and 69-73, include/minimal_docids.hpp:70-74 and 82-86 -/
def minPosA (u : UL) (lo hi : Nat) : M Nat := if hi - lo ≤ 64 then u.scanA lo hi else CT.rmqD u.rmq lo hi

/-- the range `left` or `right`, include/unsorted_list.hpp:55-62 and 67-74, include/minimal_docids.hpp:68-75 and 80-87 -/
def subA (u : UL) (lo hi : Nat) : M SR := do
  let pos ← u.minPosA lo hi
  let val ← u.accessA pos
  .ok ⟨lo, hi, pos, val⟩

variable {α : Type}

/-- include/unsorted_list.hpp:54-64, include/minimal_docids.hpp:67-77 -/
def pushLeftA (std : StdLib) (key : α → Nat) (wrap : SR → α) (u : UL) (lo pos : Nat) (q : List α) : M (List α) :=
  if pos > 0 ∧ pos - 1 ≥ lo then do
    let s ← u.subA lo (pos - 1)
    .ok (Heap.push std key q (wrap s))
  else .ok q

/-- include/unsorted_list.hpp:66-76, include/minimal_docids.hpp:79-89 -/
def pushRightA (std : StdLib) (key : α → Nat) (wrap : SR → α) (u : UL) (pos hi : Nat) (q : List α) : M (List α) :=
  if pos < u.size - 1 ∧ hi ≥ pos + 1 then do
    let s ← u.subA (pos + 1) hi
    .ok (Heap.push std key q (wrap s))
  else .ok q

/-- the loop of `topk`, include/unsorted_list.hpp:42-77 -/
def topkLoopA (std : StdLib) (u : UL) (k : Nat) (unique : Bool) : Nat → List SR → List Nat → Nat → M (List Nat × Nat)
  | 0, _, _, _ => .error .diverge
  | _ + 1, [], buf, i => .ok (buf, i)
  | fuel + 1, q@(_ :: _), buf, i => do
      let min ← Heap.top q
      if !unique || !std.binarySearch (buf.take i) min.val then do
        let buf ← wr buf i min.val
        if i + 1 = k then .ok (buf, i + 1)
        else do
          let q ← Heap.pop std SR.val q
          let q ← pushLeftA std SR.val id u min.lo min.pos q
          let q ← pushRightA std SR.val id u min.pos min.hi q
          topkLoopA std u k unique fuel q buf (i + 1)
      else do
        let q ← Heap.pop std SR.val q
        let q ← pushLeftA std SR.val id u min.lo min.pos q
        let q ← pushRightA std SR.val id u min.pos min.hi q
        topkLoopA std u k unique fuel q buf i

/-- the loop that reports everything in the range, include/unsorted_list.hpp:26-28 -/
def copyLoopA (u : UL) (lo : Nat) : Nat → Nat → List Nat → M (List Nat)
  | 0, _, buf => .ok buf
  | n + 1, i, buf => do
      let x ← u.accessA (lo + i)
      let buf ← wr buf i x
      copyLoopA u lo n (i + 1) buf

/-- `topk(r, k, topk, unique)`, include/unsorted_list.hpp:21-80 -/
def topkA (std : StdLib) (u : UL) (begin end' k : Nat) (unique : Bool) (buf : List Nat) : M (List Nat × Nat) :=
  let len := end' - begin
  if len ≤ k then do
    let buf ← u.copyLoopA begin len 0 buf
    .ok (std.sort id (buf.take len) ++ buf.drop len, len)
  else do
    let pos ← CT.rmqD u.rmq begin (end' - 1)
    let val ← u.accessA pos
    topkLoopA std u k unique (len + 1) (Heap.push std SR.val [] ⟨begin, end' - 1, pos, val⟩) buf 0

end UL

/-! ## Inverted index -/

/-- `iterator(term_id)`, include/inverted_index.hpp:98-105 -/
def InvIdx.iteratorA (ii : InvIdx) (term : Nat) : M CEI := do
  check (term < ii.numTerms)
  let offset ← ii.pointers.accessD term
  let (n, it) ← readGammaNonzeroA ii.data (BI.mk' offset)
  CEI.mkD ii.data it.pos ii.numDocs n.toNat

/-- `iterator(id - 1)`, include/autocomplete_common.hpp:48-50, include/autocomplete.hpp:178, include/autocomplete2.hpp:200,
include/autocomplete3.hpp:193 and 208-210 -/
def InvIdx.iteratorOfA (ii : InvIdx) (id : Nat) : M CEI := ii.iteratorA (if id = 0 then 2 ^ 32 - 1 else id - 1)

namespace Inter

/-- the loop of `next()`, include/inverted_index.hpp:175-186 -/
def nextLoopA (ii : InvIdx) : Nat → Nat → Inter → M Inter
  | 0, _, _ => .error .diverge
  | fuel + 1, val, s =>
      if val < ii.numDocs ∧ s.i ≠ s.its.length then do
        let it ← rd s.its s.i
        let it ← it.nextGeqD ii.data s.candidate
        let its ← wr s.its s.i it
        let val := id32 it.value
        if val ≠ s.candidate then nextLoopA ii fuel val ⟨val, 0, its⟩
        else nextLoopA ii fuel val ⟨s.candidate, s.i + 1, its⟩
      else .ok s

/-- `next()`, include/inverted_index.hpp:175-186 -/
def nextA (ii : InvIdx) (s : Inter) : M Inter :=
  nextLoopA ii ((ii.numDocs + 2) * (s.its.length + 1) + 1) 0 s

/-- the iterators of the terms, include/inverted_index.hpp:138-141 -/
def iteratorsA (ii : InvIdx) : List Nat → M (List CEI)
  | [] => .ok []
  | id :: ids => do
      check (0 < id)
      let it ← ii.iteratorOfA id
      let its ← iteratorsA ii ids
      .ok (it :: its)

/-- `intersection_iterator_type(ii, term_ids)`, include/inverted_index.hpp:134-152 -/
def mkA (std : StdLib) (ii : InvIdx) (ids : List Nat) : M Inter := do
  check (1 < ids.length)
  let its ← iteratorsA ii ids
  let its := std.sort (fun it : CEI => it.off.n) its
  let it ← rd its 0
  let it ← it.accessD ii.data 0
  let its ← wr its 0 it
  nextA ii ⟨id32 it.value, 1, its⟩

/-- `operator++`, include/inverted_index.hpp:162-167 -/
def incA (ii : InvIdx) (s : Inter) : M Inter := do
  check (s.i = s.its.length)
  let it ← rd s.its 0
  let it ← it.nextD ii.data
  let its ← wr s.its 0 it
  nextA ii ⟨id32 it.value, 1, its⟩

end Inter

/-- `compact_ef::iterator`, include/ef/compact_ef.hpp:95-111 -/
def DocIter.listA (ii : InvIdx) : DocIter CEI := ⟨CEI.hasNext, fun it => id32 it.value, fun it => it.nextD ii.data⟩

/-- `intersection_iterator_type`, include/inverted_index.hpp:154-167 -/
def DocIter.interA (ii : InvIdx) : DocIter Inter := ⟨Inter.hasNext ii, Inter.candidate, Inter.incA ii⟩

/-- `conjunctive_topk(prefix, suffix, k)`, include/autocomplete.hpp:175-184, include/autocomplete2.hpp:196-205, include/autocomplete3.hpp:191-198 -/
def withDocsA {β : Type} (std : StdLib) (ii : InvIdx) (pfx : Ids) (run : {σ : Type} → DocIter σ → σ → M β) : M β :=
  let c := deduplicate std pfx
  if c.length = 1 then do
    let t ← rd c 0
    let it ← ii.iteratorOfA t
    run (DocIter.listA ii) it
  else do
    let it ← Inter.mkA std ii c
    run (DocIter.interA ii) it

namespace HeapTopK

/-- include/autocomplete_common.hpp:64-66 -/
def advanceA (std : StdLib) (ii : InvIdx) (q : List CEI) : M (List CEI) := do
  let z ← Heap.top q
  let z ← z.nextD ii.data
  let q ← wr q 0 z
  let q ← Union.popUnless std CEI.value z.hasNext q
  Heap.heapify CEI.value q

/-- the loop that fills the queue, include/autocomplete_common.hpp:48-50, include/autocomplete3.hpp:208-210 -/
def fillA (ii : InvIdx) : Nat → Nat → M (List CEI)
  | 0, _ => .ok []
  | n + 1, term => do
      let it ← ii.iteratorOfA term
      let q ← fillA ii n (term + 1)
      .ok (it :: q)

/-- the two assertions on the range of terms, include/autocomplete_common.hpp:39 and 47, include/autocomplete3.hpp:202 and 207, and the loop -/
def startA (ii : InvIdx) (begin end' : Nat) : M (List CEI) := do
  check (Range.isInvalid ⟨begin, end'⟩ = false)
  check (0 < begin)
  fillA ii (end' + 1 - begin) begin

/-- `heap_topk(index, r, k, topk_scores)`, include/autocomplete_common.hpp:36-70 -/
def topkA (std : StdLib) (ii : InvIdx) (begin end' k : Nat) (buf : List Nat) : M (List Nat × Nat) := do
  let q ← startA ii begin end'
  Union.loop std CEI.value (advanceA std ii) k (ii.numIntegers + 1) (Heap.makeHeap std CEI.value q) buf 0

end HeapTopK

namespace MinDocs

/-- the rest of the body of the loop, include/minimal_docids.hpp:48-90, with `set_iterator`, include/util_types.hpp:88-93 -/
def advanceA (std : StdLib) (ii : InvIdx) (u : UL) (q : List RI) : M (List RI) := do
  let min ← Heap.top q
  match min.it with
  | some it => do
      let it ← it.nextD ii.data
      let q ← wr q 0 ⟨min.sr, some it⟩
      let q ← Union.popUnless std key it.hasNext q
      Heap.heapify key q
  | none => do
      check (min.sr.pos ≠ INVALID_TERM)
      let it ← ii.iteratorA min.sr.pos
      let it ← it.nextD ii.data
      let q ← wr q 0 ⟨min.sr, some it⟩
      let q ← Union.popUnless std key it.hasNext q
      let q ← Heap.heapify key q
      let q ← UL.pushLeftA std key closed u min.sr.lo min.sr.pos q
      UL.pushRightA std key closed u min.sr.pos min.sr.hi q

/-- `topk(index, r, k, topk_scores)`, include/minimal_docids.hpp:27-94 -/
def topkA (std : StdLib) (ii : InvIdx) (u : UL) (begin end' k : Nat) (buf : List Nat) : M (List Nat × Nat) := do
  let pos ← CT.rmqD u.rmq begin (end' - 1)
  let val ← u.accessA pos
  Union.loop std key (advanceA std ii u) k (ii.numIntegers + 1)
    (Heap.push std key [] (closed ⟨begin, end' - 1, pos, val⟩)) buf 0

end MinDocs

/-! ## Trie and forward index -/

namespace Trie

/-- `m_pointers[i][pos]`, include/completion_trie.hpp:180 -/
def childrenA (t : CLevel) (pos : Nat) : M Range :=
  match t.ptrs with
  | some p => p.pairD pos
  | none => .error .oob

/-- the loop of `locate_prefix`, include/completion_trie.hpp:177-181 -/
def descendA (T : List CLevel) : Nat → Range → Ids → M (Option (Nat × Range))
  | i, r, [] => .ok (some (i, r))
  | i, r, x :: xs => do
      let t ← rd T i
      let pos ← t.nodes.findInD r x
      if pos = NOT_FOUND then .ok none
      else do
        let r ← childrenA t pos
        descendA T (i + 1) r xs

/-- include/completion_trie.hpp:191-192 -/
def lastLeftA (t : CLevel) (b e rb : Nat) : M Nat :=
  if e ≠ b then do
    let l ← t.left.accessD e
    .ok (l + e)
  else .ok rb

/-- include/completion_trie.hpp:194 -/
def sizeBeforeA (t : CLevel) (e : Nat) : M Nat :=
  if e ≠ 0 then t.sizes.accessD (e - 1) else .ok 0

/-- include/completion_trie.hpp:188-195 -/
def extentA (t : CLevel) (q : Range) : M Range := do
  let b := q.b
  let e := q.e - 1
  let l ← t.left.accessD b
  let rb := l + b
  let re ← lastLeftA t b e rb
  let s ← t.sizes.accessD e
  let s' ← sizeBeforeA t e
  .ok ⟨rb, re + (s - s' + 1)⟩

/-- `locate_prefix`, include/completion_trie.hpp:171-200 -/
def locatePrefixA (T : List CLevel) (pfx : Ids) (lex : Range) : M Range := do
  let t0 ← rd T 0
  match ← descendA T 0 ⟨0, t0.nodes.size⟩ pfx with
  | none => .ok Range.invalid
  | some (i, r) =>
      match T[i]? with
      | none => .error .aborted
      | some t => do
          let q ← t.nodes.findRangeD r lex
          check (q.b ≤ q.e)
          if q.b = q.e then .ok Range.invalid
          else do
            check (q.b < q.e)
            let r ← extentA t q
            check (r.isInvalid = false)
            .ok r

end Trie

/-- `iterator(doc_id)`, include/compact_forward_index.hpp:106-111 -/
def FwdIdx.iteratorA (fi : FwdIdx) (doc : Nat) : M FwdIt := do
  check (doc < fi.numDocs)
  let pos ← fi.pointers.accessD doc
  let e ← fi.pointers.accessD (doc + 1)
  .ok ⟨pos, e - pos, 0⟩

/-- `operator*`, include/compact_forward_index.hpp:86-88 -/
def FwdIt.derefA (fi : FwdIdx) (it : FwdIt) : M Nat := do
  let v ← fi.data.getD' (it.base + it.i)
  .ok (id32 v.toNat)

/-- the loop of `intersects`, include/compact_forward_index.hpp:90-97 -/
def FwdIt.intersectsLoopA (fi : FwdIdx) (it : FwdIt) (r : Range) : Nat → Nat → M Bool
  | 0, _ => .ok false
  | k + 1, i => do
      let v ← fi.data.getD' (it.base + i)
      check (0 < v.toNat)
      if r.contains v.toNat then .ok true else it.intersectsLoopA fi r k (i + 1)

/-- `intersects(doc_id, r)`, include/compact_forward_index.hpp:113-115 -/
def FwdIdx.intersectsA (fi : FwdIdx) (doc : Nat) (r : Range) : M Bool := do
  let it ← fi.iteratorA doc
  it.intersectsLoopA fi r it.n 0

/-! ## Type 1 -/

namespace Index1

/-- `autocomplete(params)`, include/autocomplete.hpp:19-33, after `params.load()` -/
def buildA (F : Files) (mem : Nat → W) : M Index1 := do
  F.checkParams
  let ib ← InvBuilder.mkA F.univ F.inverted
  let docs ← UL.buildA (F.mapped.map (·.1)) (mem 0) (mem 1)
  let minimal ← UL.buildA ib.minimal (mem 2) (mem 3)
  let completions ← Trie.buildA F.levels (F.mapped.map (·.2))
  let dict ← FcDict.buildD F.terms
  let inverted ← ib.buildA (mem 4)
  let forward ← FwdIdx.buildA F.terms.length F.forward (mem 5)
  .ok ⟨completions, docs, minimal, dict, inverted, forward, F.mapped.length⟩

/-- how `extract_strings` reads the terms of the `i`-th result, include/autocomplete.hpp:203-208 -/
def sourceA (x : Index1) (scores : List Nat) (i : Nat) : M (Nat × (Nat → M Nat)) := do
  let doc ← rd scores i
  let it ← x.forward.iteratorA doc
  .ok (it.n, fun j => FwdIt.derefA x.forward { it with i := j })

/-- `extract_strings(num_completions)`, include/autocomplete.hpp:200-221 -/
def extractA (x : Index1) (n : Nat) (s : Scratch) : M Scratch := do
  let pool ← extractStringsD x.dict (x.sourceA s.pool.scores) n s.pool
  .ok { s with pool := pool }

/-- `prefix_topk(query, k)`, include/autocomplete.hpp:35-66 -/
def prefixTopkA (std : StdLib) (x : Index1) (q : Str) (k : Nat) (s : Scratch) : M Scratch := do
  let (s, a) ← analyseD x.dict q k true s
  match a with
  | none => .ok s
  | some (pfx, r) => do
      let r ← Trie.locatePrefixA x.completions pfx ⟨r.b + 1, r.e + 1⟩
      if r.isInvalid then .ok s
      else do
        let (scores, n) ← UL.topkA std x.docs r.b r.e k false s.pool.scores
        x.extractA n { s with pool := { s.pool with scores := scores } }

/-- the loop of `conjunctive_topk(it, r, k)`, include/autocomplete.hpp:186-198 -/
def conjLoopA {σ : Type} (x : Index1) (I : DocIter σ) (r : Range) (k : Nat) : Nat → σ → List Nat → Nat → M (List Nat × Nat)
  | 0, _, _, _ => .error .diverge
  | fuel + 1, it, scores, n =>
      if I.hasNext it then do
        let found ← x.forward.intersectsA (I.value it) r
        if found then do
          let scores ← wr scores n (I.value it)
          if n + 1 = k then .ok (scores, n + 1)
          else do
            let it ← I.next it
            conjLoopA x I r k fuel it scores (n + 1)
        else do
          let it ← I.next it
          conjLoopA x I r k fuel it scores n
      else .ok (scores, n)

/-- the two cases, include/autocomplete.hpp:85-95 -/
def conjScoresA (std : StdLib) (x : Index1) (pfx : Ids) (r : Range) (k : Nat) (scores : List Nat) : M (List Nat × Nat) :=
  if pfx.length = 0 then MinDocs.topkA std x.inverted x.minimal r.b (r.e + 1) k scores
  else withDocsA std x.inverted pfx fun I it =>
    x.conjLoopA I ⟨r.b + 1, r.e + 1⟩ k (x.inverted.numDocs + 1) it scores 0

/-- `conjunctive_topk(query, k)`, include/autocomplete.hpp:68-101 -/
def conjTopkA (std : StdLib) (x : Index1) (q : Str) (k : Nat) (s : Scratch) : M Scratch := do
  let (s, a) ← analyseD x.dict q k false s
  match a with
  | none => .ok s
  | some (pfx, r) => do
      let (scores, n) ← x.conjScoresA std pfx r k s.pool.scores
      x.extractA n { s with pool := { s.pool with scores := scores } }

end Index1

/-! ## Types 2 and 3 -/

namespace Base

/-- the part of the constructors about these members, include/autocomplete2.hpp:22-36, include/autocomplete3.hpp:31-44 -/
def buildA (F : Files) (mem : Nat → W) : M Base := do
  let (completions, docToLex) ← IntDict.buildD F.univ F.mapped
  let w ← ceilLog2A (F.mapped.length + 1)
  let lexids ← CV.buildD (toWords docToLex) w (mem 6)
  let docs ← UL.buildA (invert docToLex F.mapped.length) (mem 0) (mem 1)
  let dict ← FcDict.buildD F.terms
  .ok ⟨completions, docs, dict, lexids⟩

/-- `m_completions.extract(m_docid_to_lexid[doc_id], completions[i])`, include/autocomplete2.hpp:190-191 and 217-218,
include/autocomplete3.hpp:179-180 -/
def loadA (x : Base) (doc i : Nat) (compl : List Ids) : M (List Ids × Nat) := do
  let lex ← x.lexids.getD' doc
  let row ← rd compl i
  let (row, size) ← IntDict.extractD x.completions lex.toNat row
  let compl ← wr compl i row
  .ok (compl, size)

/-- `extract_completions(num_completions)`, include/autocomplete2.hpp:184-194, include/autocomplete3.hpp:173-183 -/
def extractCompletionsA (x : Base) (scores : List Nat) : Nat → Nat → List Ids → List Nat → M (List Ids × List Nat)
  | 0, _, compl, sizes => .ok (compl, sizes)
  | n + 1, i, compl, sizes => do
      let doc ← rd scores i
      let (compl, size) ← x.loadA doc i compl
      let sizes ← wr sizes i size
      extractCompletionsA x scores n (i + 1) compl sizes

/-- `extract_completions(n); extract_strings(n);` -/
def extractA (x : Base) (n : Nat) (s : Scratch) : M Scratch := do
  let (compl, sizes) ← x.extractCompletionsA s.pool.scores n 0 s.compl s.sizes
  x.stringsD n { s with compl := compl, sizes := sizes }

/-- `prefix_topk(query, k)`, include/autocomplete2.hpp:38-70, include/autocomplete3.hpp:46-78 -/
def prefixTopkA (std : StdLib) (x : Base) (q : Str) (k : Nat) (s : Scratch) : M Scratch := do
  let (s, a) ← analyseD x.dict q k true s
  match a with
  | none => .ok s
  | some (pfx, r) => do
      let (r, _, cbuf) ← IntDict.locatePrefixD x.completions pfx ⟨r.b + 1, r.e + 1⟩ s.cbuf
      if r.isInvalid then .ok { s with cbuf := cbuf }
      else do
        let (scores, n) ← UL.topkA std x.docs r.b r.e k false s.pool.scores
        x.extractA n { s with cbuf := cbuf, pool := { s.pool with scores := scores } }

end Base

namespace Index2

/-- `autocomplete2(params)`, include/autocomplete2.hpp:22-36, after `params.load()` -/
def buildA (F : Files) (mem : Nat → W) : M Index2 := do
  F.checkParams
  let ib ← InvBuilder.mkA F.univ F.inverted
  let base ← Base.buildA F mem
  let minimal ← UL.buildA ib.minimal (mem 2) (mem 3)
  let inverted ← ib.buildA (mem 4)
  .ok ⟨base, minimal, inverted⟩

/-- the loop of `conjunctive_topk(it, r, k)`, include/autocomplete2.hpp:207-230 -/
def conjLoopA {σ : Type} (x : Index2) (I : DocIter σ) (r : Range) (k : Nat) :
    Nat → σ → List Nat → List Ids → List Nat → Nat → M (List Nat × List Ids × List Nat × Nat)
  | 0, _, _, _, _, _ => .error .diverge
  | fuel + 1, it, scores, compl, sizes, i =>
      if I.hasNext it then do
        let (compl, size) ← x.loadA (I.value it) i compl
        let row ← rd compl i
        let found ← anyTerm r row size 0
        if found then do
          let scores ← wr scores i (I.value it)
          let sizes ← wr sizes i size
          if i + 1 = k then .ok (scores, compl, sizes, i + 1)
          else do
            let it ← I.next it
            conjLoopA x I r k fuel it scores compl sizes (i + 1)
        else do
          let it ← I.next it
          conjLoopA x I r k fuel it scores compl sizes i
      else .ok (scores, compl, sizes, i)

/-- `conjunctive_topk(query, k)`, include/autocomplete2.hpp:72-106 -/
def conjTopkA (std : StdLib) (x : Index2) (q : Str) (k : Nat) (s : Scratch) : M Scratch := do
  let (s, a) ← analyseD x.dict q k false s
  match a with
  | none => .ok s
  | some (pfx, r) =>
      if pfx.length = 0 then do
        let (scores, n) ← MinDocs.topkA std x.inverted x.minimal r.b (r.e + 1) k s.pool.scores
        x.extractA n { s with pool := { s.pool with scores := scores } }
      else do
        let (scores, compl, sizes, n) ← withDocsA std x.inverted pfx fun I it =>
          x.conjLoopA I ⟨r.b + 1, r.e + 1⟩ k (x.inverted.numDocs + 1) it s.pool.scores s.compl s.sizes 0
        x.stringsD n { s with pool := { s.pool with scores := scores }, compl := compl, sizes := sizes }

end Index2

namespace Index3

/-- `autocomplete3(params)`, include/autocomplete3.hpp:31-44, after `params.load()` -/
def buildA (F : Files) (mem : Nat → W) : M Index3 := do
  F.checkParams
  let ib ← InvBuilder.mkA F.univ F.inverted
  let base ← Base.buildA F mem
  let inverted ← ib.buildA (mem 4)
  .ok ⟨base, inverted⟩

/-- the inner loop, include/autocomplete3.hpp:216-234 -/
def advanceA (std : StdLib) (x : Index3) (doc : Nat) : Nat → List CEI → M (Bool × List CEI)
  | 0, _ => .error .diverge
  | fuel + 1, q =>
      match q with
      | [] => .ok (false, [])
      | z :: zs =>
          if z.value > doc then .ok (false, z :: zs)
          else if z.value < doc then do
            let z ← z.nextGeqD x.inverted.data doc
            let q ← restore std z.hasNext (z :: zs)
            if z.value = doc then .ok (true, q) else advanceA std x doc fuel q
          else .ok (true, z :: zs)

/-- the loop of `conjunctive_topk(it, r, k)`, include/autocomplete3.hpp:213-237 -/
def conjLoopA {σ : Type} (std : StdLib) (x : Index3) (I : DocIter σ) (k : Nat) :
    Nat → σ → List CEI → List Nat → Nat → M (List Nat × Nat)
  | 0, _, _, _, _ => .error .diverge
  | fuel + 1, it, q, scores, n =>
      if I.hasNext it && !q.isEmpty then do
        let (found, q) ← advanceA std x (I.value it) (q.length + 1) q
        if found then do
          let scores ← wr scores n (I.value it)
          if n + 1 = k then .ok (scores, n + 1)
          else do
            let it ← I.next it
            conjLoopA std x I k fuel it q scores (n + 1)
        else do
          let it ← I.next it
          conjLoopA std x I k fuel it q scores n
      else .ok (scores, n)

/-- `conjunctive_topk(it, r, k)`, include/autocomplete3.hpp:200-238 -/
def conjScanA {σ : Type} (std : StdLib) (x : Index3) (I : DocIter σ) (it : σ) (r : Range) (k : Nat) (scores : List Nat) :
    M (List Nat × Nat) := do
  let q ← HeapTopK.startA x.inverted r.b r.e
  conjLoopA std x I k (x.inverted.numDocs + 1) it (Heap.makeHeap std CEI.value q) scores 0

/-- `conjunctive_topk(prefix, suffix_lex_range, k)`, include/autocomplete3.hpp:185-198 -/
def conjScoresA (std : StdLib) (x : Index3) (pfx : Ids) (r : Range) (k : Nat) (scores : List Nat) : M (List Nat × Nat) :=
  if pfx.length = 0 then HeapTopK.topkA std x.inverted r.b r.e k scores
  else withDocsA std x.inverted pfx fun I it => x.conjScanA std I it r k scores

/-- `conjunctive_topk(query, k)`, include/autocomplete3.hpp:80-108 -/
def conjTopkA (std : StdLib) (x : Index3) (q : Str) (k : Nat) (s : Scratch) : M Scratch := do
  let (s, a) ← analyseD x.dict q k false s
  match a with
  | none => .ok s
  | some (pfx, r) => do
      let (scores, n) ← x.conjScoresA std pfx ⟨r.b + 1, r.e + 1⟩ k s.pool.scores
      x.extractA n { s with pool := { s.pool with scores := scores } }

end Index3
end AC
