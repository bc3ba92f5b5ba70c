import Verif.Model.BitVector
/-!
# Constant-time select, include/ef/darray.hpp
-/
namespace AC

/-- `darray<WordGetter>`, data members: include/ef/darray.hpp:142-145. The block inventory holds 64-bit signed numbers
(unbounded here: positions below `2^63`). -/
structure DA where
  positions : Nat
  blocks : List Int
  subs : List Nat
  over : List Nat
  deriving DecidableEq

namespace DA

/-- `block_size`, include/ef/darray.hpp:138 -/
def blockSize : Nat := 1024
/-- `subblock_size`, include/ef/darray.hpp:139 -/
def subblockSize : Nat := 32
/-- `max_in_block_distance`, include/ef/darray.hpp:140 -/
def maxInBlockDistance : Nat := 2 ^ 16

/-- `identity_getter`, `negating_getter`, include/ef/darray.hpp:148-158 -/
def getter (neg : Bool) (w : W) : W := if neg then ~~~w else w

/-- local variables of the constructor: `cur_block_positions` and the structure under construction -/
structure St where
  cur : List Nat
  da : DA

/-- `flush_cur_block`, include/ef/darray.hpp:113-136; the `uint16_t` conversions are explicit -/
def flush (s : St) : St :=
  let front := s.cur.headD 0
  let back := s.cur.getLastD 0
  let idx := (List.range (ceilDiv s.cur.length subblockSize)).map (subblockSize * ·)
  if back - front < maxInBlockDistance then
    ⟨[], { s.da with blocks := s.da.blocks ++ [(front : Int)]
                     subs := s.da.subs ++ idx.map (fun i => (s.cur.getD i 0 - front) % 2 ^ 16) }⟩
  else
    ⟨[], { s.da with blocks := s.da.blocks ++ [-(s.da.over.length : Int) - 1]
                     over := s.da.over ++ s.cur
                     subs := s.da.subs ++ idx.map (fun _ => 2 ^ 16 - 1) }⟩

/-- body of the inner loop of the constructor, include/ef/darray.hpp:27-41 -/
def push (s : St) (p : Nat) : St :=
  let s : St := ⟨s.cur ++ [p], s.da⟩
  let s := if s.cur.length = blockSize then flush s else s
  ⟨s.cur, { s.da with positions := s.da.positions + 1 }⟩

/-- the loop over the ones of one word, include/ef/darray.hpp:26-42; `fuel` bounds its iterations -/
def wordLoop (size : Nat) : Nat → Nat → W → St → M St
  | 0, _, _, _ => .error .diverge
  | fuel + 1, pos, word, s =>
      match word.lsb with
      | none => .ok s
      | some l =>
          if pos + l ≥ size then .ok s
          else wordLoop size fuel (pos + l + 1) ((word >>> l) >>> 1) (push s (pos + l))

/-- the loop over the words, include/ef/darray.hpp:22-43 -/
def wordsLoop (neg : Bool) (size : Nat) : Nat → List W → St → M St
  | _, [], s => .ok s
  | k, w :: ws, s => do
      let s ← wordLoop size 65 (64 * k) (getter neg w) s
      wordsLoop neg size (k + 1) ws s

/-- `darray(bv)`, include/ef/darray.hpp:14-51 -/
def build (neg : Bool) (v : BV) : M DA := do
  let s ← wordsLoop neg v.size 0 v.bits ⟨[], ⟨0, [], [], []⟩⟩
  .ok (if s.cur.length ≠ 0 then (flush s).da else s.da)

/-- the loop of `select`, include/ef/darray.hpp:83-88; the word where it stops, its index and the remaining count -/
def selLoop (neg : Bool) (bits : List W) : Nat → Nat → W → Nat → M (Nat × W × Nat)
  | 0, _, _, _ => .error .diverge
  | fuel + 1, k, word, rem =>
      if rem < word.popcount then .ok (k, word, rem)
      else do
        let w ← rd bits (k + 1)
        selLoop neg bits fuel (k + 1) (getter neg w) (rem - word.popcount)

/-- `select(bv, idx)`, include/ef/darray.hpp:60-92 -/
def select (neg : Bool) (d : DA) (v : BV) (idx : Nat) : M Nat := do
  let block ← rd d.blocks (idx / blockSize)
  if block < 0 then
    rd d.over ((-block - 1).toNat + idx % blockSize)
  else do
    let sub ← rd d.subs (idx / subblockSize)
    let start := block.toNat + sub
    let rem := idx % subblockSize
    if rem = 0 then .ok start
    else do
      let w ← rd v.bits (start / 64)
      let (k, word, rem) ← selLoop neg v.bits (v.bits.length + 1) (start / 64)
        (getter neg w &&& (W.all <<< (start % 64))) rem
      .ok (64 * k + word.select rem)

end DA
end AC
