import Verif.Model.Autocomplete4
import Verif.Model.DebugSearch
/-!
# The blocked inverted index and index type 4, built with assertions

The functions of Model/BlockedIndex.lean and Model/Autocomplete4.lean once more, with the `assert`s of include/blocked_inverted_index.hpp and
include/autocomplete4.hpp. A failed assertion is `Fault.aborted`. The rest of what these functions call is as in Model/DebugSearch.lean, which says which
assertions are left out.
-/
namespace AC

namespace BlkBuilder

/-- the assertions of the loop over the documents of a list, include/blocked_inverted_index.hpp:63-72 (67): the same one for every document -/
def addTermD (b : BlkBuilder) (term : Nat) (list : List Nat) (s : BlkLocals) : M (BlkBuilder × BlkLocals) := do
  check (list = [] ∨ s.lower ≤ term)
  .ok (b.addTerm term list s)

/-- the loop over the documents of the block, include/blocked_inverted_index.hpp:91-107 (the assertion: 94-95) -/
def gatherD : List Nat → (Nat → List Nat) → Nat → M (List Nat × List Nat × (Nat → List Nat))
  | [], f, off => .ok ([off], [], f)
  | d :: ds, f, off => do
      check ((f d).Pairwise (· ≤ ·))
      let (os, ts, g) ← gatherD ds (fun e => if e = d then [] else f e) (off + (f d).length)
      .ok (off :: os, f d ++ ts, g)

/-- the end of a block, include/blocked_inverted_index.hpp:75-128 -/
def closeD (std : StdLib) (b : BlkBuilder) (term : Nat) (s : BlkLocals) : M (BlkBuilder × BlkLocals) := do
  let docs := deduplicate std s.union
  let lists ← CEF.build (b.lists.appendBits (BitVec.ofNat 64 docs.length) 32) b.numDocs docs
  let (os, ts, map) ← gatherD docs s.map 0
  let univ := os.getLastD 0 + 1
  let offs ← CEF.build ((b.offs.appendBits (BitVec.ofNat 64 os.length) 32).appendBits (BitVec.ofNat 64 univ) 32) univ os
  let max ← maxElement ts
  let terms := appendAll (widthFor max) ts (b.terms.appendBits (BitVec.ofNat 64 (widthFor max)) 6)
  .ok ({ b with
    blocks := b.blocks ++ [term]
    lists := lists
    ptrLists := b.ptrLists ++ [lists.size]
    offs := offs
    ptrOffs := b.ptrOffs ++ [offs.size]
    terms := terms
    ptrTerms := b.ptrTerms ++ [terms.size] }, ⟨map, [], 0, term⟩)

/-- the loop over the terms, include/blocked_inverted_index.hpp:57-130, from term `term` on -/
def addAllD (std : StdLib) (m : Nat) : List (List Nat) → Nat → BlkBuilder → BlkLocals → M BlkBuilder
  | [], _, b, _ => .ok b
  | list :: rest, term, b, s => do
      let (b, s) ← b.addTermD term list s
      if s.postings ≥ m ∨ term = b.numTerms then do
        let (b, s) ← b.closeD std term s
        addAllD std m rest (term + 1) b s
      else addAllD std m rest (term + 1) b s

/-- `builder(params, c)`, include/blocked_inverted_index.hpp:22-139 -/
def mkD (std : StdLib) (m univ : Nat) (lists : List (List Nat)) : M BlkBuilder := do
  let b ← addAllD std m lists 1 ⟨0, univ, lists.length, [], [0], [0], [0], BVB.empty, BVB.empty, BVB.empty, []⟩
    ⟨fun _ => [], [], 0, 1⟩
  .ok { b with
    ptrLists := b.ptrLists.dropLast
    ptrOffs := b.ptrOffs.dropLast
    ptrTerms := b.ptrTerms.dropLast }

end BlkBuilder

namespace BlkIdx

/-- `block_boundary(block_id)`, include/blocked_inverted_index.hpp:255-258 (the assertion: 256) -/
def boundaryD (ii : BlkIdx) (j : Nat) : M Nat := do
  check (j < ii.blocks.length)
  ii.boundary j

/-- `block(block_id)`, include/blocked_inverted_index.hpp:399-426 (the assertion: 400) -/
def blockD (ii : BlkIdx) (j : Nat) : M Blk := do
  check (j < ii.numBlocks)
  ii.block j

/-- `in()`, include/blocked_inverted_index.hpp:343-367 (the assertion: 350) -/
def isInD (ii : BlkIdx) (b : Blk) : M (Bool × Blk) :=
  if b.docs.pos = b.docs.off.n then .ok (false, b)
  else do
    let (s, e, b) ← ii.bounds b
    check (s < e)
    if e - s < b.ids.length then .ok (false, b)
    else do
      let r ← ii.findAll b e b.ids s
      .ok (r, b)

end BlkIdx

namespace BInter

/-- the loop of `next()` for one block, include/blocked_inverted_index.hpp:371-375 (the assertion: 372) -/
def nextOneD (ii : BlkIdx) : Nat → BInter → M BInter
  | 0, _ => .error .diverge
  | fuel + 1, s =>
      if s.candidate < ii.numDocs ∧ s.i ≠ s.blocks.length then do
        check (s.i = 0)
        let b ← rd s.blocks s.i
        let d ← b.docs.next ii.lists
        let (r, b) ← ii.isInD { b with docs := d }
        let blocks ← wr s.blocks s.i b
        nextOneD ii fuel ⟨id32 d.value, if r then s.i + 1 else s.i, blocks⟩
      else .ok s

/-- the loop of `next()` for several blocks, include/blocked_inverted_index.hpp:377-389 -/
def nextManyD (ii : BlkIdx) : Nat → BInter → M BInter
  | 0, _ => .error .diverge
  | fuel + 1, s =>
      if s.candidate < ii.numDocs ∧ s.i ≠ s.blocks.length then do
        let b ← rd s.blocks s.i
        let d ← b.docs.nextGeqByScan ii.lists s.candidate
        let (r, b) ← ii.isInD { b with docs := d }
        let blocks ← wr s.blocks s.i b
        if d.value = s.candidate ∧ r = true then nextManyD ii fuel ⟨s.candidate, s.i + 1, blocks⟩
        else nextManyD ii fuel ⟨id32 (d.value + if r then 0 else 1), 0, blocks⟩
      else .ok s

/-- `next()`, include/blocked_inverted_index.hpp:369-391 -/
def nextD (ii : BlkIdx) (s : BInter) : M BInter :=
  if s.blocks.length = 1 then nextOneD ii (ii.numDocs + 2) s
  else nextManyD ii ((ii.numDocs + 2) * (s.blocks.length + 1) + 1) s

/-- the loop over the terms of the constructor, include/blocked_inverted_index.hpp:284-305 (the assertion: 287) -/
def groupD (std : StdLib) (ii : BlkIdx) : List Nat → Nat → List Nat → M (List Blk)
  | [], cur, pend => do
      let b ← ii.blockD cur
      .ok [{ b with ids := pend }]
  | t :: ts, cur, pend => do
      check (0 < t)
      let j ← ii.blockId std t
      if j > cur then do
        let b ← ii.blockD cur
        let bs ← groupD std ii ts j [t]
        .ok ({ b with ids := pend } :: bs)
      else groupD std ii ts j (pend ++ [t])

/-- `intersection_iterator_type(ii, term_ids, r)`, include/blocked_inverted_index.hpp:269-316 (the assertions: 275-279). The call of `std::unique` inside
the last of them changes nothing when the assertion holds. -/
def mkD (std : StdLib) (ii : BlkIdx) (ids : List Nat) (r : Range) : M BInter := do
  check (r.isInvalid = false)
  check (ids ≠ [])
  check (ids.Pairwise (· ≤ ·))
  check ((unique ids).length = ids.length)
  let t ← rd ids 0
  let cur ← ii.blockId std t
  let bs ← groupD std ii ids cur []
  let bs := std.sort (fun b : Blk => b.docs.off.n) bs
  let b ← rd bs 0
  let d ← b.docs.access ii.lists 0
  let bs ← wr bs 0 { b with docs := d }
  nextD ii ⟨id32 d.value, 0, bs⟩

/-- `operator++`, include/blocked_inverted_index.hpp:326-333 (the assertion: 327) -/
def incD (ii : BlkIdx) (s : BInter) : M BInter := do
  check (s.i = s.blocks.length)
  let s ← s.step ii
  nextD ii { s with i := 0 }

end BInter

namespace Index4

/-- `autocomplete4(params, c)`, include/autocomplete4.hpp:25-38, after `params.load()` -/
def buildD (std : StdLib) (m : Nat) (F : Files) (mem : Nat → W) : M Index4 := do
  F.checkParams
  let ib ← BlkBuilder.mkD std m F.univ F.inverted
  let base ← Base.buildD F mem
  let inverted ← ib.build (fun i => mem (7 + i))
  .ok ⟨base, inverted⟩

/-- the loop that puts the blocks of the range into the queue, include/autocomplete4.hpp:195-203 (the assertion: 196) -/
def blocksLoopD (ii : BlkIdx) : Nat → Nat → Nat → Nat → List Blk → M (List Blk × Nat)
  | 0, _, cur, _, q => .ok (q, cur)
  | n + 1, i, cur, bound, q => do
      _root_.AC.check (0 < i)
      if i > bound then do
        let b ← ii.blockD cur
        let bound ← ii.boundaryD (cur + 1)
        blocksLoopD ii n (i + 1) (cur + 1) bound (q ++ [b])
      else blocksLoopD ii n (i + 1) cur bound q

/-- the queue before the searches, include/autocomplete4.hpp:189-205 -/
def blocksD (std : StdLib) (ii : BlkIdx) (r : Range) : M (List Blk) := do
  let cur ← ii.blockId std r.b
  let bound ← ii.boundaryD cur
  let (q, cur) ← blocksLoopD ii (r.e - r.b) r.b cur bound []
  let b ← ii.blockD cur
  .ok (Heap.makeHeap std (fun b : Blk => b.docs.value) (q ++ [b]))

/-- `check(block, doc_id)`, include/autocomplete4.hpp:209-223 (the assertions: 211 and 214). The call of `access` inside the first of them is a call that
a program built without assertions does not make; it may move the iterator. -/
def checkD (ii : BlkIdx) (r : Range) (doc : Nat) (b : Blk) : M (Bool × Blk) := do
  let d ← b.docs.access ii.lists b.docs.pos
  _root_.AC.check (d.value = doc)
  let (s, e, b) ← ii.bounds { b with docs := d }
  _root_.AC.check (s < e)
  let found ← anyTerm ii r b (e - s) s
  .ok (found, b)

/-- the loop without complete terms, include/autocomplete4.hpp:226-234 -/
def unionLoopD (std : StdLib) (ii : BlkIdx) (r : Range) (k : Nat) : Nat → List Blk → List Nat → Nat → M (List Nat × Nat)
  | 0, _, _, _ => .error .diverge
  | fuel + 1, q, scores, n =>
      match q with
      | [] => .ok (scores, n)
      | z :: zs => do
          let (found, z) ← checkD ii r z.docs.value z
          let (scores, n) ← record found z.docs.value scores n
          if n = k then .ok (scores, n)
          else do
            let d ← z.docs.next ii.lists
            let q ← restore std d.hasNext ({ z with docs := d } :: zs)
            unionLoopD std ii r k fuel q scores n

/-- the inner loop, include/autocomplete4.hpp:240-258 -/
def advanceD (std : StdLib) (ii : BlkIdx) (r : Range) (doc : Nat) : Nat → List Blk → M (Bool × Bool × List Blk)
  | 0, _ => .error .diverge
  | fuel + 1, q =>
      match q with
      | [] => .ok (false, false, [])
      | z :: zs =>
          if z.docs.value > doc then .ok (false, false, z :: zs)
          else if z.docs.value < doc then do
            let d ← z.docs.nextGeq ii.lists doc
            let q ← restore' std d.hasNext ({ z with docs := d } :: zs)
            advanceD std ii r doc fuel q
          else do
            let (found, z) ← checkD ii r doc z
            .ok (true, found, z :: zs)

/-- the loop with complete terms, include/autocomplete4.hpp:238-259 -/
def conjLoopD (std : StdLib) (ii : BlkIdx) (r : Range) (k : Nat) : Nat → BInter → List Blk → List Nat → Nat →
    M (List Nat × Nat)
  | 0, _, _, _, _ => .error .diverge
  | fuel + 1, it, q, scores, n =>
      if it.hasNext ii && !q.isEmpty then do
        let (checked, found, q) ← advanceD std ii r it.candidate (q.length + 1) q
        let (scores, n) ← record found it.candidate scores n
        if checked = true ∧ n = k then .ok (scores, n)
        else do
          let it ← it.incD ii
          conjLoopD std ii r k fuel it q scores n
      else .ok (scores, n)

/-- `conjunctive_topk(prefix, suffix, k)`, include/autocomplete4.hpp:185-263 -/
def conjScoresD (std : StdLib) (ii : BlkIdx) (pfx : Ids) (r : Range) (k : Nat) (scores : List Nat) : M (List Nat × Nat) := do
  let q ← blocksD std ii r
  if pfx.length = 0 then unionLoopD std ii r k (q.length * (ii.numDocs + 1) + 1) q scores 0
  else do
    let it ← BInter.mkD std ii (deduplicate std pfx) r
    conjLoopD std ii r k (ii.numDocs + 1) it q scores 0

/-- `conjunctive_topk(query, k)`, include/autocomplete4.hpp:74-102 (the assertion: 77; that of `init`: 162; that of `extract_strings`: 285).
Prefix search (40-72) is that of types 2 and 3, `Base.prefixTopkD`. -/
def conjTopkD (std : StdLib) (x : Index4) (q : Str) (k : Nat) (s : Scratch) : M Scratch := do
  let (s, a) ← analyseD x.dict q k false s
  match a with
  | none => .ok s
  | some (pfx, r) => do
      let (scores, n) ← conjScoresD std x.inverted pfx ⟨r.b + 1, r.e + 1⟩ k s.pool.scores
      x.extractD n { s with pool := { s.pool with scores := scores } }

end Index4
end AC
