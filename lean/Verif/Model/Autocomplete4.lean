import Verif.Model.Autocomplete
import Verif.Model.BlockedIndex
/-!
# Index type 4: include/autocomplete4.hpp

The instance (include/types.hpp:43-45) is made of `integer_fc_dictionary`, `fc_dictionary` and
`blocked_inverted_index<compact_ef>`.
-/
namespace AC

/-- `autocomplete4`, data members: include/autocomplete4.hpp:149-154, without `m_pool` and `m_topk_completion_set` -/
structure Index4 extends Base where
  inverted : BlkIdx

namespace Index4

/-- `autocomplete4(params, c)`, include/autocomplete4.hpp:25-38; `m` is the block size (see `BlkBuilder.mk'`) -/
def build (std : StdLib) (m : Nat) (F : Files) (mem : Nat → W) : M Index4 := do
  let ib ← BlkBuilder.mk' std m F.univ F.inverted
  let base ← Base.build F mem
  let inverted ← ib.build (fun i => mem (7 + i))
  .ok ⟨base, inverted⟩

/-- the loop that puts the blocks of the range into the queue, include/autocomplete4.hpp:195-203, with `n` iterations left: the
queue and `current_block_id` -/
def blocksLoop (ii : BlkIdx) : Nat → Nat → Nat → Nat → List Blk → M (List Blk × Nat)
  | 0, _, cur, _, q => .ok (q, cur)
  | n + 1, i, cur, bound, q =>
      if i > bound then do
        let b ← ii.block cur
        let bound ← ii.boundary (cur + 1)
        blocksLoop ii n (i + 1) (cur + 1) bound (q ++ [b])
      else blocksLoop ii n (i + 1) cur bound q

/-- the queue before the searches, include/autocomplete4.hpp:189-205; the comparator is that of `block_type_comparator`,
include/autocomplete4.hpp:179-183 -/
def blocks (std : StdLib) (ii : BlkIdx) (r : Range) : M (List Blk) := do
  let cur ← ii.blockId std r.b
  let bound ← ii.boundary cur
  let (q, cur) ← blocksLoop ii (r.e - r.b) r.b cur bound []
  let b ← ii.block cur
  .ok (Heap.makeHeap std (fun b : Blk => b.docs.value) (q ++ [b]))

/-- the loop of `check`, include/autocomplete4.hpp:215-222, from `i` with `n` positions left: whether one of the terms is in the
range -/
def anyTerm (ii : BlkIdx) (r : Range) (b : Blk) : Nat → Nat → M Bool
  | 0, _ => .ok false
  | n + 1, i => do
      let t ← ii.termAt b i
      if t > r.e then .ok false
      else if r.contains t then .ok true
      else anyTerm ii r b n (i + 1)

/-- `check(block, doc_id)`, include/autocomplete4.hpp:209-223, without the storing of `doc_id`: whether it is stored, and the block;
`end` is at least `begin` -/
def check (ii : BlkIdx) (r : Range) (b : Blk) : M (Bool × Blk) := do
  let (s, e, b) ← ii.bounds b
  let found ← anyTerm ii r b (e - s) s
  .ok (found, b)

/-- `topk_scores[results++] = doc_id` when `check` says so, include/autocomplete4.hpp:219 -/
def record (found : Bool) (doc : Nat) (scores : List Nat) (n : Nat) : M (List Nat × Nat) :=
  if found then do
    let scores ← wr scores n (id32 doc)
    .ok (scores, n + 1)
  else .ok (scores, n)

/-- `if (!z.docs_iterator.has_next()) q.pop(); q.heapify();`, include/autocomplete4.hpp:232-233 -/
def restore (std : StdLib) (hasNext : Bool) (q : List Blk) : M (List Blk) :=
  if hasNext then Heap.heapify (fun b : Blk => b.docs.value) q
  else do
    let q ← Heap.pop std (fun b : Blk => b.docs.value) q
    Heap.heapify (fun b : Blk => b.docs.value) q

/-- the loop without complete terms, include/autocomplete4.hpp:226-234; every iteration moves one of the iterators -/
def unionLoop (std : StdLib) (ii : BlkIdx) (r : Range) (k : Nat) : Nat → List Blk → List Nat → Nat → M (List Nat × Nat)
  | 0, _, _, _ => .error .diverge
  | fuel + 1, q, scores, n =>
      match q with
      | [] => .ok (scores, n)
      | z :: zs => do
          let (found, z) ← check ii r z
          let (scores, n) ← record found z.docs.value scores n
          if n = k then .ok (scores, n)
          else do
            let d ← z.docs.next ii.lists
            let q ← restore std d.hasNext ({ z with docs := d } :: zs)
            unionLoop std ii r k fuel q scores n

/-- `if (!z.docs_iterator.has_next()) q.pop(); else q.heapify();`, include/autocomplete4.hpp:246-250 -/
def restore' (std : StdLib) (hasNext : Bool) (q : List Blk) : M (List Blk) :=
  if hasNext then Heap.heapify (fun b : Blk => b.docs.value) q else Heap.pop std (fun b : Blk => b.docs.value) q

/-- the inner loop, include/autocomplete4.hpp:240-258, for the document `doc`: whether `check` was called, its result, and the queue;
every iteration but the last moves one of the iterators to `doc` or beyond -/
def advance (std : StdLib) (ii : BlkIdx) (r : Range) (doc : Nat) : Nat → List Blk → M (Bool × Bool × List Blk)
  | 0, _ => .error .diverge
  | fuel + 1, q =>
      match q with
      | [] => .ok (false, false, [])
      | z :: zs =>
          if z.docs.value > doc then .ok (false, false, z :: zs)
          else if z.docs.value < doc then do
            let d ← z.docs.nextGeq ii.lists doc
            let q ← restore' std d.hasNext ({ z with docs := d } :: zs)
            advance std ii r doc fuel q
          else do
            let (found, z) ← check ii r z
            .ok (true, found, z :: zs)

/-- the loop with complete terms, include/autocomplete4.hpp:238-259 -/
def conjLoop (std : StdLib) (ii : BlkIdx) (r : Range) (k : Nat) : Nat → BInter → List Blk → List Nat → Nat →
    M (List Nat × Nat)
  | 0, _, _, _, _ => .error .diverge
  | fuel + 1, it, q, scores, n =>
      if it.hasNext ii && !q.isEmpty then do
        let (checked, found, q) ← advance std ii r it.candidate (q.length + 1) q
        let (scores, n) ← record found it.candidate scores n
        if checked = true ∧ n = k then .ok (scores, n)
        else do
          let it ← it.inc ii
          conjLoop std ii r k fuel it q scores n
      else .ok (scores, n)

/-- `conjunctive_topk(prefix, suffix, k)`, include/autocomplete4.hpp:185-263 -/
def conjScores (std : StdLib) (ii : BlkIdx) (pfx : Ids) (r : Range) (k : Nat) (scores : List Nat) : M (List Nat × Nat) := do
  let q ← blocks std ii r
  if pfx.length = 0 then unionLoop std ii r k (q.length * (ii.numDocs + 1) + 1) q scores 0
  else do
    let it ← BInter.mk' std ii (deduplicate std pfx)
    conjLoop std ii r k (ii.numDocs + 1) it q scores 0

/-- `conjunctive_topk(query, k)`, include/autocomplete4.hpp:74-102 -/
def conjTopk (std : StdLib) (x : Index4) (q : Str) (k : Nat) (s : Scratch) : M Scratch := do
  let (s, a) ← analyse x.dict q false s
  match a with
  | none => .ok s
  | some (pfx, r) => do
      let (scores, n) ← conjScores std x.inverted pfx ⟨r.b + 1, r.e + 1⟩ k s.pool.scores
      x.extract n { s with pool := { s.pool with scores := scores } }

end Index4
end AC
