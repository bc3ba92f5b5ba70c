import Verif.Model.DebugStore
import Verif.Model.CartesianTree
/-!
# Rank, select and range-minimum queries in a build with assertions

Every function here is the one of the same name in Model/RsBitVector.lean, Model/BpVector.lean, Model/CartesianTree.lean,
with the `assert`s of the code. A failed assertion is the fault `aborted`.
-/
namespace AC

namespace RS

/-- `rank(pos)`, include/succinct_rmq/rs_bit_vector.hpp:51-64 -/
def rankD (r : RS) (pos : Nat) : M Nat := do
  check (pos ≤ r.bv.size)
  r.rank pos

/-- `rank0(pos)`, include/succinct_rmq/rs_bit_vector.hpp:66-68 -/
def rank0D (r : RS) (pos : Nat) : M Nat := do
  let k ← r.rankD pos
  .ok (pos - k)

/-- `select(n)`, include/succinct_rmq/rs_bit_vector.hpp:70-114 -/
def selectD (r : RS) (n : Nat) : M Nat := do
  let ones ← r.numOnes
  check (n < ones)
  let (a, b) ← hinted r.pairs r.hints n
  let block ← blockLoop false r.pairs n (b - a + 1) a b
  check (block < numBlocks r.pairs)
  let cur ← blockRank r.pairs block
  check (cur ≤ n)
  let sub ← rd r.pairs (block * 2 + 1)
  let o := subOffset sub (n - cur)
  let cur := cur + field sub o
  check (cur ≤ n)
  let word := block * 8 + o
  let w ← rd r.bv.bits word
  let i ← W.selectD w (n - cur)
  .ok (word * 64 + i)

/-- `select0(n)`, include/succinct_rmq/rs_bit_vector.hpp:116-161 -/
def select0D (r : RS) (n : Nat) : M Nat := do
  let zeros ← r.numZeros
  check (n < zeros)
  let (a, b) ← hinted r.pairs r.hints0 n
  let block ← blockLoop true r.pairs n (b - a + 1) a b
  check (block < numBlocks r.pairs)
  let cur ← blockRank0 r.pairs block
  check (cur ≤ n)
  let s ← rd r.pairs (block * 2 + 1)
  let sub := 64 * W.invCount9 - s
  let o := subOffset sub (n - cur)
  let cur := cur + field sub o
  check (cur ≤ n)
  let word := block * 8 + o
  let w ← rd r.bv.bits word
  let i ← W.selectD (~~~w) (n - cur)
  .ok (word * 64 + i)

end RS

/-- `excess_rmq_in_block(start, end, …)`, include/succinct_rmq/bp_vector_support.hpp:394-405 -/
def Exc.inBlockD (bits : List W) (start last : Nat) (s : Exc) : M Exc := do
  check (start ≤ last)
  if start = last then .ok s
  else do
    check (start / 4 = (last - 1) / 4)
    Exc.inBlock bits (last - start) start s

namespace BP

/-- `get_block_excess(block)`, include/succinct_rmq/bp_vector_support.hpp:327-334 -/
def blockExcessD (rs : RS) (block : Nat) : M Int := do
  let e ← blockExcess rs block
  check (0 ≤ e)
  .ok e

/-- `excess(pos)`, include/succinct_rmq/bp_vector_support.hpp:390-392 -/
def excessD (b : BP) (pos : Nat) : M Int := do
  let r ← b.rs.rankD pos
  .ok (int32 (2 * (r : Int) - pos))

/-- the least excess of a block is stored in 16 bits, include/succinct_rmq/bp_vector_support.hpp:654-657, 675-676 -/
def checkMin (x : Int) : M Unit := do
  check (-32768 ≤ x)
  check (x ≤ 32767)

/-- the test at the beginning of each word, include/succinct_rmq/bp_vector_support.hpp:649-661 -/
def wordStartD (k : Nat) (s : MinSt) : M MinSt :=
  if k % 4 = 0 ∧ k ≠ 0 then do
    checkMin s.curMin
    .ok (wordStart k s)
  else .ok (wordStart k s)

/-- the loop over the words, include/succinct_rmq/bp_vector_support.hpp:648-673 -/
def minLoopD (size nwords : Nat) : Nat → List W → MinSt → M MinSt
  | _, [], s => .ok s
  | k, w :: ws, s => do
      let s ← wordStartD k s
      let n := if k = nwords - 1 ∧ size % 64 ≠ 0 then size % 64 else 64
      minLoopD size nwords (k + 1) ws ((List.range n).foldl (bitStep w) s)

/-- `block_excess_min`, include/succinct_rmq/bp_vector_support.hpp:646-677 -/
def buildBlocksD (bits : List W) (size : Nat) : M (List Int) := do
  let s ← minLoopD size bits.length 0 bits ⟨[], 0, 0⟩
  checkMin s.curMin
  .ok (s.blocks ++ [int16 s.curMin])

/-- the leaves of the tree, include/succinct_rmq/bp_vector_support.hpp:694-709 -/
def leafValuesD (rs : RS) (blocks : List Int) : Nat → Nat → M (List Int)
  | 0, _ => .ok []
  | n + 1, k => do
      let e ← blockExcessD rs (k * 32)
      let m ← leafLoop blocks e (min ((k + 1) * 32) blocks.length - k * 32) (k * 32) (int32 rs.bv.size)
      check (0 ≤ m ∧ m < int32 rs.bv.size)
      let l ← leafValuesD rs blocks n (k + 1)
      .ok (m :: l)

/-- `build_min_tree()`, include/succinct_rmq/bp_vector_support.hpp:643-727, for a vector that is not empty -/
def buildTreeD (rs : RS) : M BP := do
  let blocks ← buildBlocksD rs.bv.bits rs.bv.size
  let nBlocks := ceilDiv rs.bv.bits.length 4
  check (nBlocks = blocks.length)
  let nSuper := (nBlocks + 31) / 32
  let internal ← leaves nSuper (nSuper + 1) 1
  let l ← leafValuesD rs blocks nSuper 0
  let t ← fillLoop (internal + nSuper - 1) (List.replicate internal (int32 rs.bv.size) ++ l)
  .ok ⟨rs, internal, blocks, t⟩

/-- `bp_vector(from, with_select_hints, with_select0_hints)`, include/succinct_rmq/bp_vector.hpp:16-21 -/
def buildD (v : BV) (withHints withHints0 : Bool) : M BP := do
  let rs ← RS.build v withHints withHints0
  if v.size = 0 then .ok ⟨rs, 0, [], []⟩ else buildTreeD rs

/-- `excess_rmq_in_superblock`, include/succinct_rmq/bp_vector_support.hpp:407-425 -/
def inSuperD (b : BP) (first last : Nat) (s : Int × Nat) : M (Int × Nat) := do
  check (first ≤ last)
  if first = last then .ok s else do
    check (first / 32 = (last - 1) / 32)
    let e ← blockExcessD b.rs (first / 32 * 32)
    superLoop b.blockMin e (last - first) first s

/-- going up, include/succinct_rmq/bp_vector_support.hpp:448-473 -/
def upD (t : List Int) (last : Nat) : Nat → Climb → M Climb
  | 0, _ => .error .diverge
  | fuel + 1, c => do
      check (c.node ≠ 0)
      if c.node % 2 = 0 then do
        let right := c.right + 2 ^ c.h
        let (m, i) ← betterIf (right < last) t (c.node + 1) (c.min, c.idx)
        if right ≥ last - 1 then .ok ⟨c.node + 1, c.h, right, m, i⟩
        else upD t last fuel ⟨c.node / 2, c.h + 1, right, m, i⟩
      else upD t last fuel ⟨c.node / 2, c.h + 1, c.right, c.min, c.idx⟩

/-- going down, include/succinct_rmq/bp_vector_support.hpp:477-498 -/
def downD (t : List Int) (last : Nat) : Nat → Climb → M Climb
  | 0, _ => .error .diverge
  | fuel + 1, c =>
      if c.right > last - 1 then do
        check (c.node < t.length)
        check (c.h > 0)
        let h := c.h - 1
        let left := 2 * c.node
        if c.right - 2 ^ h ≥ last - 1 then downD t last fuel ⟨left, h, c.right - 2 ^ h, c.min, c.idx⟩
        else do
          let (m, i) ← better t left (c.min, c.idx)
          downD t last fuel ⟨left + 1, h, c.right, m, i⟩
      else .ok c

/-- `find_min_superblock(superblock_start, superblock_end, superblock_min_exc, superblock_min_idx)`,
include/succinct_rmq/bp_vector_support.hpp:427-529 -/
def minSuperD (b : BP) (first last : Nat) (s : Int × Nat) : M (Int × Nat) :=
  if first = last then .ok s else do
    let x ← rd b.superMin (b.internal + first)
    if last - first = 1 then .ok (x, first)
    else do
      let c ← upD b.superMin last (b.internal + 1) ⟨b.internal + first, 0, first, x, b.internal + first⟩
      check (c.node ≠ 0)
      let c ← downD b.superMin last (c.h + 1) c
      let (m, i) ← betterIf (c.right < last) b.superMin c.node (c.min, c.idx)
      check (c.right = last - 1)
      if m < s.1 then do
        let n ← leaf b.superMin b.internal (b.internal + 1) i
        let y ← rd b.superMin n
        check (y = m)
        check (n - b.internal ≥ first)
        check (n - b.internal < last)
        .ok (m, n - b.internal)
      else .ok s

/-- the superblock found, include/succinct_rmq/bp_vector_support.hpp:602-607 -/
def inSuperIfD (c : Bool) (b : BP) (first last : Nat) (s : Int × Nat) : M (Int × Nat) :=
  if c then b.inSuperD first last s else .ok s

/-- the search in complete blocks, include/succinct_rmq/bp_vector_support.hpp:579-612: least excess and block -/
def inBlocksD (b : BP) (minExc : Int) (blockA blockB : Nat) : M (Int × Nat) :=
  let superA := (blockA + 1) / 32
  let superB := blockB / 32
  if superA = superB then b.inSuperD (blockA + 1) blockB (minExc, 2 ^ 32 - 1)
  else do
    let s ← b.inSuperD (blockA + 1) ((superA + 1) * 32) (minExc, 2 ^ 32 - 1)
    let t ← b.minSuperD (superA + 1) superB (minExc, 2 ^ 32 - 1)
    let s ← inSuperIfD (t.1 < minExc) b (t.2 * 32) ((t.2 + 1) * 32) s
    b.inSuperD (superB * 32) blockB s

/-- the block found, include/succinct_rmq/bp_vector_support.hpp:614-620 -/
def inMinBlockD (b : BP) (k : Int × Nat) (s : Exc) : M Exc :=
  if k.1 < s.min then do
    let e ← blockExcessD b.rs k.2
    let s ← Exc.inBlockD b.rs.bv.bits (k.2 * 4) ((k.2 + 1) * 4) { s with cur := e }
    check (s.min = k.1)
    .ok s
  else .ok s

/-- everything between the words of `a` and `b`, include/succinct_rmq/bp_vector_support.hpp:564-626 -/
def middleD (b : BP) (wa wb : Nat) (s : Exc) : M Exc :=
  let blockA := wa / 4
  let blockB := wb / 4
  if blockA = blockB then Exc.inBlockD b.rs.bv.bits (wa + 1) wb s
  else do
    let s ← Exc.inBlockD b.rs.bv.bits (wa + 1) ((blockA + 1) * 4) s
    let k ← b.inBlocksD s.min blockA blockB
    let s ← b.inMinBlockD k s
    let e ← blockExcessD b.rs blockB
    Exc.inBlockD b.rs.bv.bits (blockB * 4) wb { s with cur := e }

/-- `excess_rmq(a, b, min_exc)`, include/succinct_rmq/bp_vector_support.hpp:531-641: the position and `min_exc`. The last two
assertions are not reached when the range is within one word (:558-561). -/
def excessRmqD (v : BP) (a b : Nat) : M (Nat × Int) := do
  check (a ≤ b)
  let e ← v.excessD a
  if a = b then .ok (a, e)
  else do
    let len := b - a
    let wa := a / 64
    let wb := (b - 1) / 64
    let x ← rd v.rs.bv.bits wa
    let shifted := x >>> (a % 64)
    let sub := min (64 - a % 64) len
    let padded := if sub = 64 then shifted else shifted ||| (W.all <<< sub)
    let s := Exc.inWord padded a ⟨e, e, a⟩
    if wa = wb then .ok (s.idx, s.min)
    else do
      let s ← v.middleD wa wb { s with cur := s.cur - (64 - (sub : Int)) }
      let y ← rd v.rs.bv.bits wb
      let padded := if b % 64 = 0 then y else y ||| (W.all <<< (b % 64))
      let s := Exc.inWord padded (wb * 64) s
      check (s.idx ≥ a)
      let e ← v.excessD s.idx
      check (s.min = e)
      .ok (s.idx, s.min)

end BP

namespace BVB

/-- `remainder` after the loop of `reverse`, include/bit_vector.hpp:192-202 -/
def reverseRem (shift : Nat) : List W → W → W
  | [], rem => rem
  | w :: ws, rem => if shift ≠ 64 then reverseRem shift ws (w >>> (64 - shift)) else reverseRem shift ws rem

/-- `reverse()`, include/bit_vector.hpp:189-205 (the assertion: 203) -/
def reverseD (v : BVB) : M BVB := do
  check (reverseRem (64 - v.size % 64) v.bits 0 = 0)
  .ok v.reverse

end BVB

namespace CT

/-- `builder::finalize()`, include/succinct_rmq/cartesian_tree.hpp:57-68 -/
def finalizeD (b : Builder) : M BVB := ((drain b.stack (b.bp.pushBack false)).pushBack true).reverseD

/-- `build(v, comp)`, include/succinct_rmq/cartesian_tree.hpp:79-86 and 143-146 -/
def buildD (v : List Nat) (after : W) : M BP := do
  let bits ← finalizeD (v.foldl push ⟨[], BVB.empty⟩)
  BP.buildD (BV.build bits after) false true

/-- subtraction of 64-bit numbers -/
def sub64 (x y : Nat) : Nat := (((x : Int) - (y : Int)) % 2 ^ 64).toNat

/-- `rmq(a, b)`, include/succinct_rmq/cartesian_tree.hpp:89-119; the subtractions wrap around -/
def rmqD (t : BP) (a b : Nat) : M Nat := do
  check (a ≤ b)
  if a = b then .ok a
  else do
    let n := size t
    let k := sub64 (sub64 n b) 1
    let p ← t.rs.select0D k
    let excT := int32 ((p : Int) - 2 * (k : Int))
    let e ← t.excessD (p + 1)
    check (excT - 1 = e)
    let x ← t.rs.select0D (sub64 n b)
    let y ← t.rs.select0D (sub64 n a)
    let (w, excW) ← t.excessRmqD x y
    let rank0 := (((w : Int) - excW) % 2 ^ 64).toNat / 2
    let bit ← t.rs.bv.getD' (sub64 w 1)
    check (bit = false)
    let ret := if excW ≥ excT - 1 then b else n - rank0
    check (ret ≥ a)
    check (ret ≤ b)
    .ok ret

end CT
end AC
