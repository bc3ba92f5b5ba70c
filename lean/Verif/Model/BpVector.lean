import Verif.Model.RsBitVector
/-!
# Minimum of the excess over a range, include/succinct_rmq/bp_vector.hpp and bp_vector_support.hpp

`find_open`, `find_close` and `enclose`, which the library does not call, are in Model/BpMatch. `excess_t` is `int32_t`: conversions to it are explicit,
additions and subtractions of such numbers are not reduced (overflow is undefined; all of them are within the number of
bits, and the theorems assume fewer than `2^31` bits).
-/
namespace AC

/-- conversion to `int32_t` -/
def int32 (x : Int) : Int := x.bmod (2 ^ 32)

/-- conversion to `int16_t` -/
def int16 (x : Int) : Int := x.bmod (2 ^ 16)

namespace ExcessTables

/-- one entry of the tables: the excess of the bits of a byte (`m_fwd_exc`), the negated minimum of the excess of its
prefixes (`m_fwd_min`) and the length of the shortest prefix with that excess (`m_fwd_min_idx`) -/
structure Entry where
  exc : Int
  min : Nat
  idx : Nat
  deriving DecidableEq

/-- body of the loop, include/succinct_rmq/bp_vector_support.hpp:23-38 -/
def step (c : Nat) (t : Entry) (i : Nat) : Entry :=
  let e := if (c >>> i) &&& 1 ≠ 0 then t.exc + 1 else t.exc - 1
  if -e > t.min then ⟨e, ((-e).toNat) % 256, (i + 1) % 256⟩ else ⟨e, t.min, t.idx⟩

/-- `excess_tables()`, include/succinct_rmq/bp_vector_support.hpp:12-59, for byte `c` (`char` is signed) -/
def fwd (c : Nat) : Entry := (List.range 8).foldl (step c) ⟨0, 0, 0⟩

end ExcessTables

/-- the minimum found so far: current excess, least excess, its position -/
structure Exc where
  cur : Int
  min : Int
  idx : Nat
  deriving DecidableEq

namespace Exc

/-- loop of `excess_rmq_in_word`, include/succinct_rmq/bp_vector_support.hpp:140-150: current excess, least excess and byte -/
def byteStep (word : W) (s : Exc) (i : Nat) : Exc :=
  let t := ExcessTables.fwd ((word >>> (i * 8)) &&& 0xFF).toNat
  let m := s.cur - t.min
  if m < s.min then ⟨s.cur + t.exc, m, i⟩ else ⟨s.cur + t.exc, s.min, s.idx⟩

/-- `excess_rmq_in_word(word, exc, word_start, min_exc, min_exc_idx)`, include/succinct_rmq/bp_vector_support.hpp:133-158 -/
def inWord (word : W) (start : Nat) (s : Exc) : Exc :=
  let t := (List.range 8).foldl (byteStep word) ⟨s.cur, s.min, 0⟩
  if t.min < s.min then
    ⟨t.cur, t.min, start + t.idx * 8 + (ExcessTables.fwd ((word >>> (t.idx * 8)) &&& 0xFF).toNat).idx⟩
  else ⟨t.cur, s.min, s.idx⟩

/-- `excess_rmq_in_block(start, end, exc, min_exc, min_exc_idx)`, include/succinct_rmq/bp_vector_support.hpp:394-405;
`n` words from word `w` -/
def inBlock (bits : List W) : Nat → Nat → Exc → M Exc
  | 0, _, s => .ok s
  | n + 1, w, s => do
      let x ← rd bits w
      inBlock bits n (w + 1) (inWord x (w * 64) s)

end Exc

/-- `bp_vector`, data members: include/succinct_rmq/bp_vector.hpp:100-102 and the `rs_bit_vector` it derives from -/
structure BP where
  rs : RS
  internal : Nat
  blockMin : List Int
  superMin : List Int
  deriving DecidableEq

namespace BP

/-- `get_block_excess(block)`, include/succinct_rmq/bp_vector_support.hpp:327-334 -/
def blockExcess (rs : RS) (block : Nat) : M Int := do
  let r ← rs.subBlockRank (block * 4)
  .ok (int32 (2 * (r : Int) - (block * 4 * 64 : Nat)))

/-- `excess(pos)`, include/succinct_rmq/bp_vector_support.hpp:390-392 -/
def excess (b : BP) (pos : Nat) : M Int := do
  let r ← b.rs.rank pos
  .ok (int32 (2 * (r : Int) - pos))

/-- local variables of the first loop of `build_min_tree` -/
structure MinSt where
  blocks : List Int
  curMin : Int
  curExc : Int

/-- the bits of one word, include/succinct_rmq/bp_vector_support.hpp:668-672 -/
def bitStep (word : W) (s : MinSt) (i : Nat) : MinSt :=
  let e := if word.getLsbD i then s.curExc + 1 else s.curExc - 1
  ⟨s.blocks, min s.curMin e, e⟩

/-- the test at the beginning of each word, include/succinct_rmq/bp_vector_support.hpp:649-661 -/
def wordStart (k : Nat) (s : MinSt) : MinSt :=
  if k % 4 = 0 then
    let e := if k % 128 = 0 then 0 else s.curExc
    if k ≠ 0 then ⟨s.blocks ++ [int16 s.curMin], e, e⟩ else ⟨s.blocks, s.curMin, e⟩
  else s

/-- the loop over the words, include/succinct_rmq/bp_vector_support.hpp:648-673 -/
def minLoop (size nwords : Nat) : Nat → List W → MinSt → MinSt
  | _, [], s => s
  | k, w :: ws, s =>
      let n := if k = nwords - 1 ∧ size % 64 ≠ 0 then size % 64 else 64
      minLoop size nwords (k + 1) ws ((List.range n).foldl (bitStep w) (wordStart k s))

/-- `block_excess_min`, include/succinct_rmq/bp_vector_support.hpp:646-677 -/
def buildBlocks (bits : List W) (size : Nat) : List Int :=
  let s := minLoop size bits.length 0 bits ⟨[], 0, 0⟩
  s.blocks ++ [int16 s.curMin]

/-- the least power of two that is at least `n`, include/succinct_rmq/bp_vector_support.hpp:684-687 -/
def leaves (n : Nat) : Nat → Nat → M Nat
  | 0, _ => .error .diverge
  | fuel + 1, k => if k < n then leaves n fuel (2 * k) else .ok k

/-- the blocks of a superblock, include/succinct_rmq/bp_vector_support.hpp:700-705 -/
def leafLoop (blocks : List Int) (e : Int) : Nat → Nat → Int → M Int
  | 0, _, m => .ok m
  | n + 1, block, m => do
      let x ← rd blocks block
      leafLoop blocks e n (block + 1) (min m (e + x))

/-- the leaves of the tree, include/succinct_rmq/bp_vector_support.hpp:694-709 -/
def leafValues (rs : RS) (blocks : List Int) : Nat → Nat → M (List Int)
  | 0, _ => .ok []
  | n + 1, k => do
      let e ← blockExcess rs (k * 32)
      let m ← leafLoop blocks e (min ((k + 1) * 32) blocks.length - k * 32) (k * 32) (int32 rs.bv.size)
      let l ← leafValues rs blocks n (k + 1)
      .ok (m :: l)

/-- the internal nodes, bottom-up, include/succinct_rmq/bp_vector_support.hpp:717-723; `node` decreases to 2 -/
def fillLoop : Nat → List Int → M (List Int)
  | 0, t => .ok t
  | 1, t => .ok t
  | node + 2, t => do
      let p ← rd t ((node + 2) / 2)
      let x ← rd t (node + 2)
      let t ← wr t ((node + 2) / 2) (min p x)
      fillLoop (node + 1) t

/-- `build_min_tree()`, include/succinct_rmq/bp_vector_support.hpp:643-727, for a vector that is not empty -/
def buildTree (rs : RS) : M BP := do
  let blocks := buildBlocks rs.bv.bits rs.bv.size
  let nBlocks := ceilDiv rs.bv.bits.length 4
  let nSuper := (nBlocks + 31) / 32
  let internal ← leaves nSuper (nSuper + 1) 1
  let l ← leafValues rs blocks nSuper 0
  let t ← fillLoop (internal + nSuper - 1) (List.replicate internal (int32 rs.bv.size) ++ l)
  .ok ⟨rs, internal, blocks, t⟩

/-- `bp_vector(from, with_select_hints, with_select0_hints)`, include/succinct_rmq/bp_vector.hpp:16-21 -/
def build (v : BV) (withHints withHints0 : Bool) : M BP := do
  let rs ← RS.build v withHints withHints0
  if v.size = 0 then .ok ⟨rs, 0, [], []⟩ else buildTree rs

/-- `excess_rmq_in_superblock(block_start, block_end, block_min_exc, block_min_idx)`,
include/succinct_rmq/bp_vector_support.hpp:407-425: the loop, for `n` blocks from `block` -/
def superLoop (blocks : List Int) (e : Int) : Nat → Nat → Int × Nat → M (Int × Nat)
  | 0, _, s => .ok s
  | n + 1, block, s => do
      let x ← rd blocks block
      superLoop blocks e n (block + 1) (if e + x < s.1 then (e + x, block) else s)

/-- `excess_rmq_in_superblock`, include/succinct_rmq/bp_vector_support.hpp:407-425 -/
def inSuper (b : BP) (first last : Nat) (s : Int × Nat) : M (Int × Nat) :=
  if first = last then .ok s else do
    let e ← blockExcess b.rs (first / 32 * 32)
    superLoop b.blockMin e (last - first) first s

/-- the position in the tree: node, height, last superblock spanned by the node, least excess found, node where -/
structure Climb where
  node : Nat
  h : Nat
  right : Nat
  min : Int
  idx : Nat

/-- `m_superblock_excess_min[sibling] < node_min_exc` and the update, include/succinct_rmq/bp_vector_support.hpp:459-463,
492-495, 500-505 -/
def better (t : List Int) (node : Nat) (s : Int × Nat) : M (Int × Nat) := do
  let x ← rd t node
  .ok (if x < s.1 then (x, node) else s)

/-- the same when a condition holds -/
def betterIf (c : Bool) (t : List Int) (node : Nat) (s : Int × Nat) : M (Int × Nat) :=
  if c then better t node s else .ok s

/-- going up, include/succinct_rmq/bp_vector_support.hpp:448-473 -/
def up (t : List Int) (last : Nat) : Nat → Climb → M Climb
  | 0, _ => .error .diverge
  | fuel + 1, c =>
      if c.node % 2 = 0 then do
        let right := c.right + 2 ^ c.h
        let (m, i) ← betterIf (right < last) t (c.node + 1) (c.min, c.idx)
        if right ≥ last - 1 then .ok ⟨c.node + 1, c.h, right, m, i⟩
        else up t last fuel ⟨c.node / 2, c.h + 1, right, m, i⟩
      else up t last fuel ⟨c.node / 2, c.h + 1, c.right, c.min, c.idx⟩

/-- going down, include/succinct_rmq/bp_vector_support.hpp:477-498 -/
def down (t : List Int) (last : Nat) : Nat → Climb → M Climb
  | 0, _ => .error .diverge
  | fuel + 1, c =>
      if c.right > last - 1 then
        let h := c.h - 1
        let left := 2 * c.node
        if c.right - 2 ^ h ≥ last - 1 then down t last fuel ⟨left, h, c.right - 2 ^ h, c.min, c.idx⟩
        else do
          let (m, i) ← better t left (c.min, c.idx)
          down t last fuel ⟨left + 1, h, c.right, m, i⟩
      else .ok c

/-- to the leaf, include/succinct_rmq/bp_vector_support.hpp:512-520 -/
def leaf (t : List Int) (internal : Nat) : Nat → Nat → M Nat
  | 0, _ => .error .diverge
  | fuel + 1, node =>
      if node < internal then do
        let r ← rd t (2 * node + 1)
        let l ← rd t (2 * node)
        leaf t internal fuel (if r < l then 2 * node + 1 else 2 * node)
      else .ok node

/-- `find_min_superblock(superblock_start, superblock_end, superblock_min_exc, superblock_min_idx)`,
include/succinct_rmq/bp_vector_support.hpp:427-529 -/
def minSuper (b : BP) (first last : Nat) (s : Int × Nat) : M (Int × Nat) :=
  if first = last then .ok s else do
    let x ← rd b.superMin (b.internal + first)
    if last - first = 1 then .ok (x, first)
    else do
      let c ← up b.superMin last (b.internal + 1) ⟨b.internal + first, 0, first, x, b.internal + first⟩
      let c ← down b.superMin last (c.h + 1) c
      let (m, i) ← betterIf (c.right < last) b.superMin c.node (c.min, c.idx)
      if m < s.1 then do
        let n ← leaf b.superMin b.internal (b.internal + 1) i
        .ok (m, n - b.internal)
      else .ok s

/-- the superblock found, include/succinct_rmq/bp_vector_support.hpp:602-607 -/
def inSuperIf (c : Bool) (b : BP) (first last : Nat) (s : Int × Nat) : M (Int × Nat) :=
  if c then b.inSuper first last s else .ok s

/-- the search in complete blocks, include/succinct_rmq/bp_vector_support.hpp:579-612: least excess and block -/
def inBlocks (b : BP) (minExc : Int) (blockA blockB : Nat) : M (Int × Nat) :=
  let superA := (blockA + 1) / 32
  let superB := blockB / 32
  if superA = superB then b.inSuper (blockA + 1) blockB (minExc, 2 ^ 32 - 1)
  else do
    let s ← b.inSuper (blockA + 1) ((superA + 1) * 32) (minExc, 2 ^ 32 - 1)
    let t ← b.minSuper (superA + 1) superB (minExc, 2 ^ 32 - 1)
    let s ← inSuperIf (t.1 < minExc) b (t.2 * 32) ((t.2 + 1) * 32) s
    b.inSuper (superB * 32) blockB s

/-- the block found, include/succinct_rmq/bp_vector_support.hpp:614-620 -/
def inMinBlock (b : BP) (k : Int × Nat) (s : Exc) : M Exc :=
  if k.1 < s.min then do
    let e ← blockExcess b.rs k.2
    Exc.inBlock b.rs.bv.bits 4 (k.2 * 4) { s with cur := e }
  else .ok s

/-- everything between the words of `a` and `b`, include/succinct_rmq/bp_vector_support.hpp:564-626 -/
def middle (b : BP) (wa wb : Nat) (s : Exc) : M Exc :=
  let blockA := wa / 4
  let blockB := wb / 4
  if blockA = blockB then Exc.inBlock b.rs.bv.bits (wb - (wa + 1)) (wa + 1) s
  else do
    let s ← Exc.inBlock b.rs.bv.bits ((blockA + 1) * 4 - (wa + 1)) (wa + 1) s
    let k ← b.inBlocks s.min blockA blockB
    let s ← b.inMinBlock k s
    let e ← blockExcess b.rs blockB
    Exc.inBlock b.rs.bv.bits (wb - blockB * 4) (blockB * 4) { s with cur := e }

/-- `excess_rmq(a, b, min_exc)`, include/succinct_rmq/bp_vector_support.hpp:531-641: the position and `min_exc` -/
def excessRmq (v : BP) (a b : Nat) : M (Nat × Int) := do
  let e ← v.excess a
  if a = b then .ok (a, e)
  else do
    let len := b - a
    let wa := a / 64
    let wb := (b - 1) / 64
    let x ← rd v.rs.bv.bits wa
    let shifted := x >>> (a % 64)
    let sub := min (64 - a % 64) len
    let padded := if sub = 64 then shifted else shifted ||| (W.all <<< sub)
    let s := Exc.inWord padded a ⟨e, e, a⟩
    if wa = wb then .ok (s.idx, s.min)
    else do
      let s ← v.middle wa wb { s with cur := s.cur - (64 - (sub : Int)) }
      let y ← rd v.rs.bv.bits wb
      let padded := if b % 64 = 0 then y else y ||| (W.all <<< (b % 64))
      let s := Exc.inWord padded (wb * 64) s
      .ok (s.idx, s.min)

end BP
end AC
