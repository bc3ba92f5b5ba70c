import Verif.Model.DebugType4
import Verif.Model.DebugAll
/-!
# The index type 4, built with all assertions

The functions of Model/DebugType4.lean with the assertions of the structures below them as well, as in Model/DebugAll.lean. The names end with `A`.
-/
namespace AC

namespace BlkBuilder

/-- include/blocked_inverted_index.hpp:120-121, with `util::msb`, include/util.hpp:190-197 -/
def widthForA (max : Nat) : M Nat := do
  let w ← ceilLog2A (max + 1)
  .ok (if w = 0 then 1 else w)

/-- `for (auto t : term_list) m_terms.append_bits(t, width)`, include/blocked_inverted_index.hpp:124 -/
def appendAllA (width : Nat) : List Nat → BVB → M BVB
  | [], b => .ok b
  | t :: ts, b => do
      let b ← b.appendBitsD (BitVec.ofNat 64 t) width
      appendAllA width ts b

/-- the end of a block, include/blocked_inverted_index.hpp:75-128 -/
def closeA (std : StdLib) (b : BlkBuilder) (term : Nat) (s : BlkLocals) : M (BlkBuilder × BlkLocals) := do
  let docs := deduplicate std s.union
  let lists ← b.lists.appendBitsD (BitVec.ofNat 64 docs.length) 32
  let lists ← CEF.buildD lists b.numDocs docs
  let (os, ts, map) ← gatherD docs s.map 0
  let univ := os.getLastD 0 + 1
  let offs ← b.offs.appendBitsD (BitVec.ofNat 64 os.length) 32
  let offs ← offs.appendBitsD (BitVec.ofNat 64 univ) 32
  let offs ← CEF.buildD offs univ os
  let max ← maxElement ts
  let width ← widthForA max
  let terms ← b.terms.appendBitsD (BitVec.ofNat 64 width) 6
  let terms ← appendAllA width ts terms
  .ok ({ b with
    blocks := b.blocks ++ [term]
    lists := lists
    ptrLists := b.ptrLists ++ [lists.size]
    offs := offs
    ptrOffs := b.ptrOffs ++ [offs.size]
    terms := terms
    ptrTerms := b.ptrTerms ++ [terms.size] }, ⟨map, [], 0, term⟩)

/-- the loop over the terms, include/blocked_inverted_index.hpp:57-130, from term `term` on -/
def addAllA (std : StdLib) (m : Nat) : List (List Nat) → Nat → BlkBuilder → BlkLocals → M BlkBuilder
  | [], _, b, _ => .ok b
  | list :: rest, term, b, s => do
      let (b, s) ← b.addTermD term list s
      if s.postings ≥ m ∨ term = b.numTerms then do
        let (b, s) ← b.closeA std term s
        addAllA std m rest (term + 1) b s
      else addAllA std m rest (term + 1) b s

/-- `builder(params, c)`, include/blocked_inverted_index.hpp:22-139 -/
def mkA (std : StdLib) (m univ : Nat) (lists : List (List Nat)) : M BlkBuilder := do
  let b ← addAllA std m lists 1 ⟨0, univ, lists.length, [], [0], [0], [0], BVB.empty, BVB.empty, BVB.empty, []⟩
    ⟨fun _ => [], [], 0, 1⟩
  .ok { b with
    ptrLists := b.ptrLists.dropLast
    ptrOffs := b.ptrOffs.dropLast
    ptrTerms := b.ptrTerms.dropLast }

/-- `build(ii)`, include/blocked_inverted_index.hpp:163-179 -/
def buildA (b : BlkBuilder) (mem : Nat → W) : M BlkIdx := do
  let pl ← EF.buildD (toWords b.ptrLists)
  let po ← EF.buildD (toWords b.ptrOffs)
  let pt ← EF.buildD (toWords b.ptrTerms)
  .ok ⟨b.numIntegers, b.numDocs, b.numTerms, b.blocks, pl, BV.build b.lists (mem 0), po, BV.build b.offs (mem 1),
    pt, BV.build b.terms (mem 2)⟩

end BlkBuilder

namespace BlkIdx

/-- `block(block_id)`, include/blocked_inverted_index.hpp:399-426 (the assertion: 400; that of `bits_getter`, include/bit_vector.hpp:409) -/
def blockA (ii : BlkIdx) (j : Nat) : M Blk := do
  check (j < ii.numBlocks)
  let lower ← ii.lowerOf j
  let p ← ii.ptrLists.accessD j
  let n ← ii.lists.getBitsD p 32
  let docs ← CEI.mkD ii.lists (p + 32) ii.numDocs n.toNat
  let p ← ii.ptrOffs.accessD j
  let n ← ii.offs.getBitsD p 32
  let univ ← ii.offs.getBitsD (p + 32) 32
  let offs ← CEI.mkD ii.offs (p + 32 + 32) univ.toNat n.toNat
  let p ← ii.ptrTerms.accessD j
  let width ← ii.terms.getBitsD p 6
  check (0 < width.toNat)
  .ok ⟨docs, offs, ⟨p + 6, width.toNat⟩, [], lower⟩

/-- `offsets_iterator.access(pos)` and `access(pos + 1)`, include/blocked_inverted_index.hpp:348-349, include/autocomplete4.hpp:212-213 -/
def boundsA (ii : BlkIdx) (b : Blk) : M (Nat × Nat × Blk) := do
  let o ← b.offs.accessD ii.offs b.docs.pos
  let o' ← o.accessD ii.offs (b.docs.pos + 1)
  .ok (o.value, o'.value, { b with offs := o' })

/-- `in()`, include/blocked_inverted_index.hpp:343-367 (the assertion: 350) -/
def isInA (ii : BlkIdx) (b : Blk) : M (Bool × Blk) :=
  if b.docs.pos = b.docs.off.n then .ok (false, b)
  else do
    let (s, e, b) ← ii.boundsA b
    check (s < e)
    if e - s < b.ids.length then .ok (false, b)
    else do
      let r ← ii.findAll b e b.ids s
      .ok (r, b)

end BlkIdx

namespace BInter

/-- the loop of `next()` for one block, include/blocked_inverted_index.hpp:371-375 (the assertion: 372) -/
def nextOneA (ii : BlkIdx) : Nat → BInter → M BInter
  | 0, _ => .error .diverge
  | fuel + 1, s =>
      if s.candidate < ii.numDocs ∧ s.i ≠ s.blocks.length then do
        check (s.i = 0)
        let b ← rd s.blocks s.i
        let d ← b.docs.nextD ii.lists
        let (r, b) ← ii.isInA { b with docs := d }
        let blocks ← wr s.blocks s.i b
        nextOneA ii fuel ⟨id32 d.value, if r then s.i + 1 else s.i, blocks⟩
      else .ok s

/-- the loop of `next()` for several blocks, include/blocked_inverted_index.hpp:377-389 -/
def nextManyA (ii : BlkIdx) : Nat → BInter → M BInter
  | 0, _ => .error .diverge
  | fuel + 1, s =>
      if s.candidate < ii.numDocs ∧ s.i ≠ s.blocks.length then do
        let b ← rd s.blocks s.i
        let d ← b.docs.nextGeqByScanD ii.lists s.candidate
        let (r, b) ← ii.isInA { b with docs := d }
        let blocks ← wr s.blocks s.i b
        if d.value = s.candidate ∧ r = true then nextManyA ii fuel ⟨s.candidate, s.i + 1, blocks⟩
        else nextManyA ii fuel ⟨id32 (d.value + if r then 0 else 1), 0, blocks⟩
      else .ok s

/-- `next()`, include/blocked_inverted_index.hpp:369-391 -/
def nextA (ii : BlkIdx) (s : BInter) : M BInter :=
  if s.blocks.length = 1 then nextOneA ii (ii.numDocs + 2) s
  else nextManyA ii ((ii.numDocs + 2) * (s.blocks.length + 1) + 1) s

/-- the loop over the terms of the constructor, include/blocked_inverted_index.hpp:284-305 (the assertion: 287) -/
def groupA (std : StdLib) (ii : BlkIdx) : List Nat → Nat → List Nat → M (List Blk)
  | [], cur, pend => do
      let b ← ii.blockA cur
      .ok [{ b with ids := pend }]
  | t :: ts, cur, pend => do
      check (0 < t)
      let j ← ii.blockId std t
      if j > cur then do
        let b ← ii.blockA cur
        let bs ← groupA std ii ts j [t]
        .ok ({ b with ids := pend } :: bs)
      else groupA std ii ts j (pend ++ [t])

/-- `intersection_iterator_type(ii, term_ids, r)`, include/blocked_inverted_index.hpp:269-316 (the assertions: 275-279). The call of `std::unique` inside
the last of them changes nothing when the assertion holds. -/
def mkA (std : StdLib) (ii : BlkIdx) (ids : List Nat) (r : Range) : M BInter := do
  check (r.isInvalid = false)
  check (ids ≠ [])
  check (ids.Pairwise (· ≤ ·))
  check ((unique ids).length = ids.length)
  let t ← rd ids 0
  let cur ← ii.blockId std t
  let bs ← groupA std ii ids cur []
  let bs := std.sort (fun b : Blk => b.docs.off.n) bs
  let b ← rd bs 0
  let d ← b.docs.accessD ii.lists 0
  let bs ← wr bs 0 { b with docs := d }
  nextA ii ⟨id32 d.value, 0, bs⟩

/-- `if (m_blocks.size() > 1) m_candidate = m_blocks[0].docs_iterator.next();`, include/blocked_inverted_index.hpp:328-330 -/
def stepA (ii : BlkIdx) (s : BInter) : M BInter :=
  if s.blocks.length > 1 then do
    let b ← rd s.blocks 0
    let d ← b.docs.nextD ii.lists
    let blocks ← wr s.blocks 0 { b with docs := d }
    .ok { s with candidate := id32 d.value, blocks := blocks }
  else .ok s

/-- `operator++`, include/blocked_inverted_index.hpp:326-333 (the assertion: 327) -/
def incA (ii : BlkIdx) (s : BInter) : M BInter := do
  check (s.i = s.blocks.length)
  let s ← s.stepA ii
  nextA ii { s with i := 0 }

end BInter

namespace Index4

/-- `autocomplete4(params, c)`, include/autocomplete4.hpp:25-38, after `params.load()` -/
def buildA (std : StdLib) (m : Nat) (F : Files) (mem : Nat → W) : M Index4 := do
  F.checkParams
  let ib ← BlkBuilder.mkA std m F.univ F.inverted
  let base ← Base.buildA F mem
  let inverted ← ib.buildA (fun i => mem (7 + i))
  .ok ⟨base, inverted⟩

/-- the loop that puts the blocks of the range into the queue, include/autocomplete4.hpp:195-203 (the assertion: 196) -/
def blocksLoopA (ii : BlkIdx) : Nat → Nat → Nat → Nat → List Blk → M (List Blk × Nat)
  | 0, _, cur, _, q => .ok (q, cur)
  | n + 1, i, cur, bound, q => do
      _root_.AC.check (0 < i)
      if i > bound then do
        let b ← ii.blockA cur
        let bound ← ii.boundaryD (cur + 1)
        blocksLoopA ii n (i + 1) (cur + 1) bound (q ++ [b])
      else blocksLoopA ii n (i + 1) cur bound q

/-- the queue before the searches, include/autocomplete4.hpp:189-205 -/
def blocksA (std : StdLib) (ii : BlkIdx) (r : Range) : M (List Blk) := do
  let cur ← ii.blockId std r.b
  let bound ← ii.boundaryD cur
  let (q, cur) ← blocksLoopA ii (r.e - r.b) r.b cur bound []
  let b ← ii.blockA cur
  .ok (Heap.makeHeap std (fun b : Blk => b.docs.value) (q ++ [b]))

/-- `check(block, doc_id)`, include/autocomplete4.hpp:209-223 (the assertions: 211 and 214). The call of `access` inside the first of them is a call that
a program built without assertions does not make; it may move the iterator. -/
def checkA (ii : BlkIdx) (r : Range) (doc : Nat) (b : Blk) : M (Bool × Blk) := do
  let d ← b.docs.accessD ii.lists b.docs.pos
  _root_.AC.check (d.value = doc)
  let (s, e, b) ← ii.boundsA { b with docs := d }
  _root_.AC.check (s < e)
  let found ← anyTerm ii r b (e - s) s
  .ok (found, b)

/-- the loop without complete terms, include/autocomplete4.hpp:226-234 -/
def unionLoopA (std : StdLib) (ii : BlkIdx) (r : Range) (k : Nat) : Nat → List Blk → List Nat → Nat → M (List Nat × Nat)
  | 0, _, _, _ => .error .diverge
  | fuel + 1, q, scores, n =>
      match q with
      | [] => .ok (scores, n)
      | z :: zs => do
          let (found, z) ← checkA ii r z.docs.value z
          let (scores, n) ← record found z.docs.value scores n
          if n = k then .ok (scores, n)
          else do
            let d ← z.docs.nextD ii.lists
            let q ← restore std d.hasNext ({ z with docs := d } :: zs)
            unionLoopA std ii r k fuel q scores n

/-- the inner loop, include/autocomplete4.hpp:240-258 -/
def advanceA (std : StdLib) (ii : BlkIdx) (r : Range) (doc : Nat) : Nat → List Blk → M (Bool × Bool × List Blk)
  | 0, _ => .error .diverge
  | fuel + 1, q =>
      match q with
      | [] => .ok (false, false, [])
      | z :: zs =>
          if z.docs.value > doc then .ok (false, false, z :: zs)
          else if z.docs.value < doc then do
            let d ← z.docs.nextGeqD ii.lists doc
            let q ← restore' std d.hasNext ({ z with docs := d } :: zs)
            advanceA std ii r doc fuel q
          else do
            let (found, z) ← checkA ii r doc z
            .ok (true, found, z :: zs)

/-- the loop with complete terms, include/autocomplete4.hpp:238-259 -/
def conjLoopA (std : StdLib) (ii : BlkIdx) (r : Range) (k : Nat) : Nat → BInter → List Blk → List Nat → Nat →
    M (List Nat × Nat)
  | 0, _, _, _, _ => .error .diverge
  | fuel + 1, it, q, scores, n =>
      if it.hasNext ii && !q.isEmpty then do
        let (checked, found, q) ← advanceA std ii r it.candidate (q.length + 1) q
        let (scores, n) ← record found it.candidate scores n
        if checked = true ∧ n = k then .ok (scores, n)
        else do
          let it ← it.incA ii
          conjLoopA std ii r k fuel it q scores n
      else .ok (scores, n)

/-- `conjunctive_topk(prefix, suffix, k)`, include/autocomplete4.hpp:185-263 -/
def conjScoresA (std : StdLib) (ii : BlkIdx) (pfx : Ids) (r : Range) (k : Nat) (scores : List Nat) : M (List Nat × Nat) := do
  let q ← blocksA std ii r
  if pfx.length = 0 then unionLoopA std ii r k (q.length * (ii.numDocs + 1) + 1) q scores 0
  else do
    let it ← BInter.mkA std ii (deduplicate std pfx) r
    conjLoopA std ii r k (ii.numDocs + 1) it q scores 0

/-- `conjunctive_topk(query, k)`, include/autocomplete4.hpp:74-102 (the assertion: 77; that of `init`: 162; that of `extract_strings`: 285).
Prefix search (40-72) is that of types 2 and 3, `Base.prefixTopkA`. -/
def conjTopkA (std : StdLib) (x : Index4) (q : Str) (k : Nat) (s : Scratch) : M Scratch := do
  let (s, a) ← analyseD x.dict q k false s
  match a with
  | none => .ok s
  | some (pfx, r) => do
      let (scores, n) ← conjScoresA std x.inverted pfx ⟨r.b + 1, r.e + 1⟩ k s.pool.scores
      x.extractA n { s with pool := { s.pool with scores := scores } }

end Index4
end AC
