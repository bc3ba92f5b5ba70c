import Verif.Model.InvertedIndex
import Verif.Model.Parse
/-!
# Blocked inverted index, include/blocked_inverted_index.hpp, with `InvertedListType = ef::compact_ef` (include/types.hpp:28)
-/
namespace AC

/-- `blocked_inverted_index`, data members: include/blocked_inverted_index.hpp:442-454 -/
structure BlkIdx where
  numIntegers : Nat
  numDocs : Nat
  numTerms : Nat
  blocks : List Nat
  ptrLists : EF
  lists : BV
  ptrOffs : EF
  offs : BV
  ptrTerms : EF
  terms : BV
  deriving DecidableEq

/-- `blocked_inverted_index::builder`, data members: include/blocked_inverted_index.hpp:181-196 -/
structure BlkBuilder where
  numIntegers : Nat
  numDocs : Nat
  numTerms : Nat
  blocks : List Nat
  ptrLists : List Nat
  ptrOffs : List Nat
  ptrTerms : List Nat
  lists : BVB
  offs : BVB
  terms : BVB
  minimal : List Nat

/-- the local variables of the constructor of the builder, include/blocked_inverted_index.hpp:46-56: `terms` (a map whose entries
are empty when they are first read), `union_of_lists`, `num_postings_in_block`, `lower_bound` -/
structure BlkLocals where
  map : Nat → List Nat
  union : List Nat
  postings : Nat
  lower : Nat

namespace BlkBuilder

/-- `terms[doc_id].push_back(term_id - lower_bound)` for the documents of a list, include/blocked_inverted_index.hpp:63-72 -/
def addPostings (x : Nat) : List Nat → (Nat → List Nat) → Nat → List Nat
  | [], f => f
  | d :: ds, f => addPostings x ds (fun e => if e = d then f e ++ [x] else f e)

/-- the loop over the documents of the block, include/blocked_inverted_index.hpp:91-107, and the last offset, 109:
`offset_list`, `term_list` and the map after the calls of `clear` -/
def gather : List Nat → (Nat → List Nat) → Nat → List Nat × List Nat × (Nat → List Nat)
  | [], f, off => ([off], [], f)
  | d :: ds, f, off =>
      let (os, ts, g) := gather ds (fun e => if e = d then [] else f e) (off + (f d).length)
      (off :: os, f d ++ ts, g)

/-- `*std::max_element(term_list.begin(), term_list.end())`, include/blocked_inverted_index.hpp:118-119 -/
def maxElement : List Nat → M Nat
  | [] => .error .oob
  | t :: ts => .ok (ts.foldl max t)

/-- include/blocked_inverted_index.hpp:120-121 -/
def widthFor (max : Nat) : Nat := if ceilLog2 (max + 1) = 0 then 1 else ceilLog2 (max + 1)

/-- `for (auto t : term_list) m_terms.append_bits(t, width)`, include/blocked_inverted_index.hpp:124 -/
def appendAll (width : Nat) : List Nat → BVB → BVB
  | [], b => b
  | t :: ts, b => appendAll width ts (b.appendBits (BitVec.ofNat 64 t) width)

/-- the end of a block, include/blocked_inverted_index.hpp:75-128. `sort` followed by `unique` is what `deduplicate` does. -/
def close (std : StdLib) (b : BlkBuilder) (term : Nat) (s : BlkLocals) : M (BlkBuilder × BlkLocals) := do
  let docs := deduplicate std s.union
  let lists ← CEF.build (b.lists.appendBits (BitVec.ofNat 64 docs.length) 32) b.numDocs docs
  let (os, ts, map) := gather docs s.map 0
  let univ := os.getLastD 0 + 1
  let offs ← CEF.build ((b.offs.appendBits (BitVec.ofNat 64 os.length) 32).appendBits (BitVec.ofNat 64 univ) 32) univ os
  let max ← maxElement ts
  let terms := appendAll (widthFor max) ts (b.terms.appendBits (BitVec.ofNat 64 (widthFor max)) 6)
  .ok ({ b with
    blocks := b.blocks ++ [term]
    lists := lists
    ptrLists := b.ptrLists ++ [lists.size]
    offs := offs
    ptrOffs := b.ptrOffs ++ [offs.size]
    terms := terms
    ptrTerms := b.ptrTerms ++ [terms.size] }, ⟨map, [], 0, term⟩)

/-- the first part of an iteration of the loop over the terms, include/blocked_inverted_index.hpp:58-72 -/
def addTerm (b : BlkBuilder) (term : Nat) (list : List Nat) (s : BlkLocals) : BlkBuilder × BlkLocals :=
  ({ b with numIntegers := b.numIntegers + list.length, minimal := b.minimal ++ list.head?.toList },
    { s with
      map := addPostings (term - s.lower) list s.map
      union := s.union ++ list
      postings := s.postings + list.length })

/-- the loop over the terms, include/blocked_inverted_index.hpp:57-130, from term `term` on -/
def addAll (std : StdLib) (m : Nat) : List (List Nat) → Nat → BlkBuilder → BlkLocals → M BlkBuilder
  | [], _, b, _ => .ok b
  | list :: rest, term, b, s => do
      let (b, s) := b.addTerm term list s
      if s.postings ≥ m ∨ term = b.numTerms then do
        let (b, s) ← b.close std term s
        addAll std m rest (term + 1) b s
      else addAll std m rest (term + 1) b s

/-- `builder(params, c)`, include/blocked_inverted_index.hpp:22-139, on the lists read from the `.inverted` file. The block size
`m` is arbitrary here; the test that `c` is in `(0,1]` and the product `m_num_docs * c` are in `blockSize`. -/
def mk' (std : StdLib) (m univ : Nat) (lists : List (List Nat)) : M BlkBuilder := do
  let b ← addAll std m lists 1 ⟨0, univ, lists.length, [], [0], [0], [0], BVB.empty, BVB.empty, BVB.empty, []⟩
    ⟨fun _ => [], [], 0, 1⟩
  .ok { b with
    ptrLists := b.ptrLists.dropLast
    ptrOffs := b.ptrOffs.dropLast
    ptrTerms := b.ptrTerms.dropLast }

/-- `build(ii)`, include/blocked_inverted_index.hpp:163-179; `mem` gives the words that follow the buffers in memory -/
def build (b : BlkBuilder) (mem : Nat → W) : M BlkIdx := do
  let pl ← EF.build (toWords b.ptrLists)
  let po ← EF.build (toWords b.ptrOffs)
  let pt ← EF.build (toWords b.ptrTerms)
  .ok ⟨b.numIntegers, b.numDocs, b.numTerms, b.blocks, pl, BV.build b.lists (mem 0), po, BV.build b.offs (mem 1),
    pt, BV.build b.terms (mem 2)⟩

end BlkBuilder

/-- `block_type`, include/blocked_inverted_index.hpp:260-266 -/
structure Blk where
  docs : CEI
  offs : CEI
  terms : BG
  ids : List Nat
  lower : Nat
  deriving DecidableEq

namespace BlkIdx

/-- `num_blocks()`, include/blocked_inverted_index.hpp:213-215 -/
def numBlocks (ii : BlkIdx) : Nat := ii.blocks.length

/-- the choice made by `block_id`, include/blocked_inverted_index.hpp:251-252 -/
def blockOf (ii : BlkIdx) (term id : Nat) : M Nat :=
  if id > 0 then do
    let x ← rd ii.blocks (id - 1)
    .ok (if x = term then id - 1 else id)
  else .ok id

/-- `block_id(term_id)`, include/blocked_inverted_index.hpp:248-253 -/
def blockId (std : StdLib) (ii : BlkIdx) (term : Nat) : M Nat := ii.blockOf term (std.upperBound ii.blocks term)

/-- `block_boundary(block_id)`, include/blocked_inverted_index.hpp:255-258 -/
def boundary (ii : BlkIdx) (j : Nat) : M Nat := rd ii.blocks j

/-- `lower_bound` of a block, include/blocked_inverted_index.hpp:403 -/
def lowerOf (ii : BlkIdx) (j : Nat) : M Nat := if j > 0 then rd ii.blocks (j - 1) else .ok 1

/-- `block(block_id)`, include/blocked_inverted_index.hpp:399-426 -/
def block (ii : BlkIdx) (j : Nat) : M Blk := do
  let lower ← ii.lowerOf j
  let p ← ii.ptrLists.access j
  let n ← ii.lists.getBits p 32
  let docs ← CEI.mk' ii.lists (p + 32) ii.numDocs n.toNat
  let p ← ii.ptrOffs.access j
  let n ← ii.offs.getBits p 32
  let univ ← ii.offs.getBits (p + 32) 32
  let offs ← CEI.mk' ii.offs (p + 32 + 32) univ.toNat n.toNat
  let p ← ii.ptrTerms.access j
  let width ← ii.terms.getBits p 6
  .ok ⟨docs, offs, ⟨p + 6, width.toNat⟩, [], lower⟩

/-- `block.terms_iterator.access(i) + block.lower_bound`, include/blocked_inverted_index.hpp:357, include/autocomplete4.hpp:216 -/
def termAt (ii : BlkIdx) (b : Blk) (i : Nat) : M Nat := do
  let w ← b.terms.access ii.terms i
  .ok (w.toNat + b.lower)

/-- `offsets_iterator.access(pos)` and `access(pos + 1)`, include/blocked_inverted_index.hpp:348-349,
include/autocomplete4.hpp:212-213: the two values and the block -/
def bounds (ii : BlkIdx) (b : Blk) : M (Nat × Nat × Blk) := do
  let o ← b.offs.access ii.offs b.docs.pos
  let o' ← o.access ii.offs (b.docs.pos + 1)
  .ok (o.value, o'.value, { b with offs := o' })

/-- the inner loop of `in()`, include/blocked_inverted_index.hpp:356-362, from `i` with `n` positions left: where it stops and
whether `x` was found -/
def findTerm (ii : BlkIdx) (b : Blk) (x : Nat) : Nat → Nat → M (Nat × Bool)
  | 0, i => .ok (i, false)
  | n + 1, i => do
      let t ← ii.termAt b i
      if t = x then .ok (i, true) else findTerm ii b x n (i + 1)

/-- the outer loop of `in()`, include/blocked_inverted_index.hpp:354-364; `e` is the end -/
def findAll (ii : BlkIdx) (b : Blk) (e : Nat) : List Nat → Nat → M Bool
  | [], _ => .ok true
  | x :: xs, i => do
      let (i, found) ← ii.findTerm b x (e - i) i
      if found then findAll ii b e xs i else .ok false

/-- `in()`, include/blocked_inverted_index.hpp:343-367, for the block `b`; `end` is at least `begin` -/
def isIn (ii : BlkIdx) (b : Blk) : M (Bool × Blk) :=
  if b.docs.pos = b.docs.off.n then .ok (false, b)
  else do
    let (s, e, b) ← ii.bounds b
    if e - s < b.ids.length then .ok (false, b)
    else do
      let r ← ii.findAll b e b.ids s
      .ok (r, b)

end BlkIdx

/-- `intersection_iterator_type`, data members: include/blocked_inverted_index.hpp:336-341, without the constants `m_num_docs` and
`m_suffix` and the unused `m_range` -/
structure BInter where
  candidate : Nat
  i : Nat
  blocks : List Blk
  deriving DecidableEq

namespace BInter

/-- the loop of `next()` for one block, include/blocked_inverted_index.hpp:371-375 -/
def nextOne (ii : BlkIdx) : Nat → BInter → M BInter
  | 0, _ => .error .diverge
  | fuel + 1, s =>
      if s.candidate < ii.numDocs ∧ s.i ≠ s.blocks.length then do
        let b ← rd s.blocks s.i
        let d ← b.docs.next ii.lists
        let (r, b) ← ii.isIn { b with docs := d }
        let blocks ← wr s.blocks s.i b
        nextOne ii fuel ⟨id32 d.value, if r then s.i + 1 else s.i, blocks⟩
      else .ok s

/-- the loop of `next()` for several blocks, include/blocked_inverted_index.hpp:377-389 -/
def nextMany (ii : BlkIdx) : Nat → BInter → M BInter
  | 0, _ => .error .diverge
  | fuel + 1, s =>
      if s.candidate < ii.numDocs ∧ s.i ≠ s.blocks.length then do
        let b ← rd s.blocks s.i
        let d ← b.docs.nextGeqByScan ii.lists s.candidate
        let (r, b) ← ii.isIn { b with docs := d }
        let blocks ← wr s.blocks s.i b
        if d.value = s.candidate ∧ r = true then nextMany ii fuel ⟨s.candidate, s.i + 1, blocks⟩
        else nextMany ii fuel ⟨id32 (d.value + if r then 0 else 1), 0, blocks⟩
      else .ok s

/-- `next()`, include/blocked_inverted_index.hpp:369-391; every iteration increases the candidate or `m_i` -/
def next (ii : BlkIdx) (s : BInter) : M BInter :=
  if s.blocks.length = 1 then nextOne ii (ii.numDocs + 2) s
  else nextMany ii ((ii.numDocs + 2) * (s.blocks.length + 1) + 1) s

/-- the loop over the terms of the constructor, include/blocked_inverted_index.hpp:281-305: the blocks of the terms, each with its
terms; `pend` are the terms from `prev_i` to `i` -/
def group (std : StdLib) (ii : BlkIdx) : List Nat → Nat → List Nat → M (List Blk)
  | [], cur, pend => do
      let b ← ii.block cur
      .ok [{ b with ids := pend }]
  | t :: ts, cur, pend => do
      let j ← ii.blockId std t
      if j > cur then do
        let b ← ii.block cur
        let bs ← group std ii ts j [t]
        .ok ({ b with ids := pend } :: bs)
      else group std ii ts j (pend ++ [t])

/-- `intersection_iterator_type(ii, term_ids, r)`, include/blocked_inverted_index.hpp:269-316 -/
def mk' (std : StdLib) (ii : BlkIdx) (ids : List Nat) : M BInter := do
  let t ← rd ids 0
  let cur ← ii.blockId std t
  let bs ← group std ii ids cur []
  let bs := std.sort (fun b : Blk => b.docs.off.n) bs
  let b ← rd bs 0
  let d ← b.docs.access ii.lists 0
  let bs ← wr bs 0 { b with docs := d }
  next ii ⟨id32 d.value, 0, bs⟩

/-- `has_next()`, include/blocked_inverted_index.hpp:318-320 -/
def hasNext (ii : BlkIdx) (s : BInter) : Bool := s.candidate < ii.numDocs

/-- `if (m_blocks.size() > 1) m_candidate = m_blocks[0].docs_iterator.next();`, include/blocked_inverted_index.hpp:328-330 -/
def step (ii : BlkIdx) (s : BInter) : M BInter :=
  if s.blocks.length > 1 then do
    let b ← rd s.blocks 0
    let d ← b.docs.next ii.lists
    let blocks ← wr s.blocks 0 { b with docs := d }
    .ok { s with candidate := id32 d.value, blocks := blocks }
  else .ok s

/-- `operator++`, include/blocked_inverted_index.hpp:326-333 -/
def inc (ii : BlkIdx) (s : BInter) : M BInter := do
  let s ← s.step ii
  next ii { s with i := 0 }

/-- `for (; it.has_next(); ++it)`: the documents enumerated (test/test_blocked_inverted_index.cpp) -/
def collect (ii : BlkIdx) : Nat → BInter → M (List Nat)
  | 0, _ => .error .diverge
  | fuel + 1, s =>
      if s.hasNext ii then do
        let s' ← s.inc ii
        let ds ← collect ii fuel s'
        .ok (s.candidate :: ds)
      else .ok []

end BInter

end AC
