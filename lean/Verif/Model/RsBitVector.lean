import Verif.Model.BitVector
/-!
# Bit vectors with rank and select, include/succinct_rmq/rs_bit_vector.hpp
-/
namespace AC

namespace W
/-- `ones_step_9`, include/util.hpp:237-239 -/
def ones9 : W := 1 <<< 0 ||| (1 : W) <<< 9 ||| (1 : W) <<< 18 ||| (1 : W) <<< 27 ||| (1 : W) <<< 36 ||| (1 : W) <<< 45 ||| (1 : W) <<< 54
/-- `msbs_step_9`, include/util.hpp:241 -/
def msbs9 : W := 0x100 * ones9
/-- `inv_count_step_9`, include/util.hpp:245-247 -/
def invCount9 : W := (1 : W) <<< 54 ||| (2 : W) <<< 45 ||| (3 : W) <<< 36 ||| (4 : W) <<< 27 ||| (5 : W) <<< 18 ||| (6 : W) <<< 9 ||| 7
/-- `uleq_step_9(x, y)`, include/util.hpp:262-266 -/
def uleq9 (x y : W) : W := (((((y ||| msbs9) - (x &&& ~~~msbs9)) ||| (x ^^^ y)) ^^^ (x &&& ~~~y)) &&& msbs9) >>> 8
end W

/-- `rs_bit_vector`, data members: include/succinct_rmq/rs_bit_vector.hpp:194-196 and the `bit_vector` it derives from.
The hints are block numbers. -/
structure RS where
  bv : BV
  pairs : List W
  hints : List Nat
  hints0 : List Nat
  deriving DecidableEq

namespace RS

/-- local variables of the first loop of `build_indices`, include/succinct_rmq/rs_bit_vector.hpp:200-204 -/
structure PSt where
  pairs : List W
  nextRank : Nat
  curSub : Nat
  subranks : W

/-- `subranks <<= 9; subranks |= cur_subrank`, include/succinct_rmq/rs_bit_vector.hpp:209-210, 224-225 -/
def shiftIn (sub : W) (cur : Nat) : W := (sub <<< 9) ||| BitVec.ofNat 64 cur

/-- body of the loop over words, include/succinct_rmq/rs_bit_vector.hpp:206-220 -/
def pairStep (i : Nat) (w : W) (s : PSt) : PSt :=
  let pop := w.popcount
  let sub := if i % 8 ≠ 0 then shiftIn s.subranks s.curSub else s.subranks
  let next := s.nextRank + pop
  let cur := s.curSub + pop
  if i % 8 = 7 then ⟨s.pairs ++ [sub, BitVec.ofNat 64 next], next, 0, 0⟩
  else ⟨s.pairs, next, cur, sub⟩

/-- the loop over words, include/succinct_rmq/rs_bit_vector.hpp:205-221 -/
def pairLoop : Nat → List W → PSt → PSt
  | _, [], s => s
  | i, w :: ws, s => pairLoop (i + 1) ws (pairStep i w s)

/-- the first part of `build_indices`, include/succinct_rmq/rs_bit_vector.hpp:199-235 -/
def buildPairs (ws : List W) : List W :=
  let s := pairLoop 0 ws ⟨[0], 0, 0, 0⟩
  let left := 8 - ws.length % 8
  let sub := Nat.repeat (fun x => shiftIn x s.curSub) left s.subranks
  let pairs := s.pairs ++ [sub]
  if ws.length % 8 ≠ 0 then pairs ++ [BitVec.ofNat 64 s.nextRank, 0] else pairs

/-- `num_blocks()`, include/succinct_rmq/rs_bit_vector.hpp:164-166 -/
def numBlocks (pairs : List W) : Nat := pairs.length / 2 - 1

/-- `block_rank(block)`, include/succinct_rmq/rs_bit_vector.hpp:168-170 -/
def blockRank (pairs : List W) (block : Nat) : M Nat := do
  let x ← rd pairs (block * 2)
  .ok x.toNat

/-- `block_rank0(block)`, include/succinct_rmq/rs_bit_vector.hpp:185-187 -/
def blockRank0 (pairs : List W) (block : Nat) : M Nat := do
  let x ← rd pairs (block * 2)
  .ok (block * 8 * 64 - x.toNat)

/-- `block_rank` or `block_rank0`: the code for ones and zeros is the same but for this -/
def blockRankOf (zeros : Bool) (pairs : List W) (block : Nat) : M Nat :=
  if zeros then blockRank0 pairs block else blockRank pairs block

/-- the loops that fill the hints, include/succinct_rmq/rs_bit_vector.hpp:240-245, 253-258; `fuel` is the number of
blocks left -/
def hintLoop (zeros : Bool) (pairs : List W) : Nat → Nat → Nat → List Nat → M (List Nat)
  | 0, _, _, hs => .ok hs
  | fuel + 1, i, threshold, hs => do
      let r ← blockRankOf zeros pairs (i + 1)
      if r > threshold then hintLoop zeros pairs fuel (i + 1) (threshold + 1024) (hs ++ [i])
      else hintLoop zeros pairs fuel (i + 1) threshold hs

/-- the second or third part of `build_indices`, include/succinct_rmq/rs_bit_vector.hpp:237-261 -/
def buildHints (zeros wanted : Bool) (pairs : List W) : M (List Nat) :=
  if wanted then do
    let hs ← hintLoop zeros pairs (numBlocks pairs) 0 1024 []
    .ok (hs ++ [numBlocks pairs])
  else .ok []

/-- `rs_bit_vector(from, with_select_hints, with_select0_hints)`, include/succinct_rmq/rs_bit_vector.hpp:15-20 -/
def build (v : BV) (withHints withHints0 : Bool) : M RS := do
  let pairs := buildPairs v.bits
  let hints ← buildHints false withHints pairs
  let hints0 ← buildHints true withHints0 pairs
  .ok ⟨v, pairs, hints, hints0⟩

/-- `num_ones()`, include/succinct_rmq/rs_bit_vector.hpp:43-45; an empty vector has no pairs -/
def numOnes (r : RS) : M Nat :=
  if r.pairs.length < 2 then .error .oob else do
    let x ← rd r.pairs (r.pairs.length - 2)
    .ok x.toNat

/-- `num_zeros()`, include/succinct_rmq/rs_bit_vector.hpp:47-49 -/
def numZeros (r : RS) : M Nat := do
  let x ← r.numOnes
  .ok (r.bv.size - x)

/-- `x >> (7 - i) * 9 & 0x1FF` -/
def field (x : W) (i : Nat) : Nat := ((x >>> ((7 - i) * 9)) &&& 0x1FF).toNat

/-- `sub_block_rank(sub_block)`, include/succinct_rmq/rs_bit_vector.hpp:172-179 -/
def subBlockRank (r : RS) (sub : Nat) : M Nat := do
  let block := sub / 8
  let b ← blockRank r.pairs block
  let x ← rd r.pairs (block * 2 + 1)
  .ok (b + field x (sub % 8))

/-- `rank(pos)`, include/succinct_rmq/rs_bit_vector.hpp:51-64 -/
def rank (r : RS) (pos : Nat) : M Nat := do
  if pos = r.bv.size then r.numOnes
  else do
    let k ← r.subBlockRank (pos / 64)
    let left := pos % 64
    if left ≠ 0 then do
      let w ← rd r.bv.bits (pos / 64)
      .ok (k + W.popcount (w <<< (64 - left)))
    else .ok k

/-- `rank0(pos)`, include/succinct_rmq/rs_bit_vector.hpp:66-68 -/
def rank0 (r : RS) (pos : Nat) : M Nat := do
  let k ← r.rank pos
  .ok (pos - k)

/-- the choice of the interval of blocks by the hints, include/succinct_rmq/rs_bit_vector.hpp:74-82, 120-128 -/
def hinted (pairs : List W) (hints : List Nat) (n : Nat) : M (Nat × Nat) :=
  if hints.length ≠ 0 then do
    let chunk := n / 1024
    let b ← rd hints chunk
    if chunk ≠ 0 then do
      let a ← rd hints (chunk - 1)
      .ok (a, b + 1)
    else .ok (0, b + 1)
  else .ok (0, numBlocks pairs)

/-- the binary search over blocks, include/succinct_rmq/rs_bit_vector.hpp:85-93, 131-139; the length of the interval is
halved, hence at most that many iterations -/
def blockLoop (zeros : Bool) (pairs : List W) (n : Nat) : Nat → Nat → Nat → M Nat
  | 0, _, _ => .error .diverge
  | fuel + 1, a, b =>
      if b - a > 1 then do
        let mid := a + (b - a) / 2
        let x ← blockRankOf zeros pairs mid
        if x ≤ n then blockLoop zeros pairs n fuel mid b
        else blockLoop zeros pairs n fuel a mid
      else .ok a

/-- the number of fields that are at most `k`, include/succinct_rmq/rs_bit_vector.hpp:101-107, 147-154 -/
def subOffset (subRanks : W) (k : Nat) : Nat :=
  (((W.uleq9 subRanks (BitVec.ofNat 64 k * W.ones9)) * W.ones9) >>> 54 &&& 0x7).toNat

/-- `select(n)`, include/succinct_rmq/rs_bit_vector.hpp:70-114 -/
def select (r : RS) (n : Nat) : M Nat := do
  let (a, b) ← hinted r.pairs r.hints n
  let block ← blockLoop false r.pairs n (b - a + 1) a b
  let cur ← blockRank r.pairs block
  let sub ← rd r.pairs (block * 2 + 1)
  let o := subOffset sub (n - cur)
  let cur := cur + field sub o
  let word := block * 8 + o
  let w ← rd r.bv.bits word
  .ok (word * 64 + w.select (n - cur))

/-- `select0(n)`, include/succinct_rmq/rs_bit_vector.hpp:116-161 -/
def select0 (r : RS) (n : Nat) : M Nat := do
  let (a, b) ← hinted r.pairs r.hints0 n
  let block ← blockLoop true r.pairs n (b - a + 1) a b
  let cur ← blockRank0 r.pairs block
  let s ← rd r.pairs (block * 2 + 1)
  let sub := 64 * W.invCount9 - s
  let o := subOffset sub (n - cur)
  let cur := cur + field sub o
  let word := block * 8 + o
  let w ← rd r.bv.bits word
  .ok (word * 64 + W.select (~~~w) (n - cur))

end RS
end AC
