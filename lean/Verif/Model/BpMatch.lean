import Verif.Model.BpVector
import Verif.Model.Util
/-!
# Matching parentheses, include/succinct_rmq/bp_vector.hpp and bp_vector_support.hpp

`find_close`, `find_open` and `enclose`. Excesses are `int32_t` as in Model/BpVector. Asserts are not checked (`NDEBUG`).
-/
namespace AC
namespace ExcessTables

/-- body of the loop for `m_fwd_pos[c]`, include/succinct_rmq/bp_vector_support.hpp:23-32: excess and the nine entries -/
def fwdPosStep (c : Nat) (s : Int × List Nat) (i : Nat) : Int × List Nat :=
  if (c >>> i) &&& 1 ≠ 0 then (s.1 + 1, s.2)
  else
    let e := s.1 - 1
    if e < 0 ∧ s.2.getD (-e).toNat 0 = 0 then (e, s.2.set (-e).toNat (i + 1)) else (e, s.2)

/-- `m_fwd_pos[c]`, include/succinct_rmq/bp_vector_support.hpp:14-38: where the excess of a prefix is `-i` first, or zero -/
def fwdPos (c : Nat) : List Nat := ((List.range 8).foldl (fwdPosStep c) (0, List.replicate 9 0)).2

/-- body of the loop for `m_bwd_pos[c]` and `m_bwd_min[c]`, include/succinct_rmq/bp_vector_support.hpp:45-57 -/
def bwdStep (c : Nat) (s : Int × List Nat × Int) (i : Nat) : Int × List Nat × Int :=
  if (c <<< i) &&& 128 ≠ 0 then
    let e := s.1 + 1
    (e, if e > 0 ∧ s.2.1.getD e.toNat 0 = 0 then s.2.1.set e.toNat (i + 1) else s.2.1, max e s.2.2)
  else (s.1 - 1, s.2.1, max (s.1 - 1) s.2.2)

/-- `m_bwd_pos[c]` and `m_bwd_min[c]`, include/succinct_rmq/bp_vector_support.hpp:14-17, 42-57 -/
def bwd (c : Nat) : Int × List Nat × Int := (List.range 8).foldl (bwdStep c) (0, List.replicate 9 0, 0)

/-- `m_bwd_pos[c]` -/
def bwdPos (c : Nat) : List Nat := (bwd c).2.1

/-- `m_bwd_min[c]` -/
def bwdMin (c : Nat) : Nat := (bwd c).2.2.toNat % 256

end ExcessTables

namespace BP
open Util

/-- the loops that put eight table entries into a word, include/succinct_rmq/bp_vector_support.hpp:81-86, 111-117 -/
def gather (f : Nat → Nat) : W := (List.range 8).foldl (fun a i => a ||| (BitVec.ofNat 64 (f i) <<< (i * 8))) 0

/-- byte `i` of a word: `(word >> i * 8) & 0xFF` -/
def byteOf (word : W) (i : Nat) : Nat := ((word >>> (i * 8)) &&& 0xFF).toNat

/-- `cum_exc_step_8` of `find_close_in_word`, include/succinct_rmq/bp_vector_support.hpp:77-79 -/
def sumsUp (byteCounts : W) (cur : Int) : W :=
  (BitVec.ofInt 64 cur + (((2 : W) * byteCounts - (8 : W) * ones8) <<< 8)) * ones8

/-- the look-up in `find_close_in_word`, include/succinct_rmq/bp_vector_support.hpp:91-99; `shift` from `util::lsb` -/
def pickClose (word cum : W) : Option Nat → M (Option Nat)
  | some shift => do
      let p ← rd (ExcessTables.fwdPos ((word >>> shift) &&& 0xFF).toNat) ((cum >>> shift) &&& 0xFF).toNat
      .ok (some (shift + p - 1))
  | none => .ok none

/-- `find_close_in_word(word, byte_counts, cur_exc, ret)`, include/succinct_rmq/bp_vector_support.hpp:74-100: `ret`, or
`none` when it returns false -/
def closeInWord (word byteCounts : W) (cur : Int) : M (Option Nat) :=
  pickClose word (sumsUp byteCounts cur)
    (W.lsb (leqStep8 (sumsUp byteCounts cur) (gather (fun i => (ExcessTables.fwd (byteOf word i)).min))))

/-- `cum_exc_step_8` of `find_open_in_word`, include/succinct_rmq/bp_vector_support.hpp:105-109 -/
def sumsDown (byteCounts : W) (cur : Int) : W :=
  (BitVec.ofInt 64 cur - (((2 : W) * reverseBytes byteCounts - (8 : W) * ones8) <<< 8)) * ones8

/-- the look-up in `find_open_in_word`, include/succinct_rmq/bp_vector_support.hpp:122-130 -/
def pickOpen (word cum : W) : Option Nat → M (Option Nat)
  | some shift => do
      let p ← rd (ExcessTables.bwdPos ((word >>> (64 - shift - 8)) &&& 0xFF).toNat) ((cum >>> shift) &&& 0xFF).toNat
      .ok (some (64 - (shift + p)))
  | none => .ok none

/-- `find_open_in_word(word, byte_counts, cur_exc, ret)`, include/succinct_rmq/bp_vector_support.hpp:102-131 -/
def openInWord (word byteCounts : W) (cur : Int) : M (Option Nat) :=
  pickOpen word (sumsDown byteCounts cur) (W.lsb (leqStep8 (sumsDown byteCounts cur)
    (gather (fun i => ExcessTables.bwdMin ((word >>> (64 - i * 8 - 8)) &&& 0xFF).toNat))))

/-- the test `excess <= 64` before the search in a word, include/succinct_rmq/bp_vector_support.hpp:175-180, 244-249 -/
def ifSmall (search : W → W → Int → M (Option Nat)) (word : W) (e : Int) : M (Option Nat) :=
  if e ≤ 64 then search word (byteCounts word) e else .ok none

/-- `static_cast<excess_t>(2 * util::bytes_sum(byte_counts) - 64)`, include/succinct_rmq/bp_vector_support.hpp:181, 250 -/
def wordExcess (word : W) : Int := int32 (2 * ((bytesSum (byteCounts word)).toNat : Int) - 64)

/-- loop of `find_close_in_block`, include/succinct_rmq/bp_vector_support.hpp:169-182: `n` words from word `w` -/
def closeLoop (bits : List W) : Nat → Nat → Int → M (Option Nat)
  | 0, _, _ => .ok none
  | n + 1, w, e => do
      let x ← rd bits w
      match ← ifSmall closeInWord x e with
      | some r => .ok (some (r + w * 64))
      | none => closeLoop bits n (w + 1) (e + wordExcess x)

/-- `find_close_in_block(block_offset, excess, start, ret)`, include/succinct_rmq/bp_vector_support.hpp:161-184 -/
def closeInBlock (bits : List W) (off : Nat) (e : Int) (start : Nat) : M (Option Nat) :=
  if e > int32 (((4 - start) * 64 : Nat) : Int) then .ok none else closeLoop bits (4 - start) (off + start) e

/-- loop of `find_open_in_block`, include/succinct_rmq/bp_vector_support.hpp:238-251: the `n` words of the block before word
`off + n`, the last first -/
def openLoop (bits : List W) (off : Nat) : Nat → Int → M (Option Nat)
  | 0, _ => .ok none
  | n + 1, e => do
      let x ← rd bits (off + n)
      match ← ifSmall openInWord x e with
      | some r => .ok (some (r + (off + n) * 64))
      | none => openLoop bits off n (e - wordExcess x)

/-- `find_open_in_block(block_offset, excess, start, ret)`, include/succinct_rmq/bp_vector_support.hpp:230-253 -/
def openInBlock (bits : List W) (off : Nat) (e : Int) (start : Nat) : M (Option Nat) :=
  if e > int32 ((start * 64 : Nat) : Int) then .ok none else openLoop bits off start e

/-- loop of `search_block_in_superblock<1>`, include/succinct_rmq/bp_vector_support.hpp:305-313: `n` blocks from `block` -/
def blockUp (blocks : List Int) (super t : Int) : Nat → Nat → M (Option Nat)
  | 0, _ => .ok none
  | n + 1, block => do
      let x ← rd blocks block
      if t ≥ super + x then .ok (some block) else blockUp blocks super t n (block + 1)

/-- loop of `search_block_in_superblock<0>`, include/succinct_rmq/bp_vector_support.hpp:315-321: the `n` blocks
`first .. first + n - 1`, the last first -/
def blockDown (blocks : List Int) (super t : Int) (first : Nat) : Nat → M (Option Nat)
  | 0 => .ok none
  | n + 1 => do
      let x ← rd blocks (first + n)
      if t ≥ super + x then .ok (some (first + n)) else blockDown blocks super t first n

/-- `search_block_in_superblock<direction>(block, excess, found_block)`, include/succinct_rmq/bp_vector_support.hpp:298-325;
`up` for `direction` 1 -/
def searchSuper (b : BP) (up : Bool) (block : Nat) (t : Int) : M (Option Nat) := do
  let super := block / 32
  let e ← blockExcess b.rs (super * 32)
  if up then blockUp b.blockMin e t (min ((super + 1) * 32) b.blockMin.length - block) block
  else blockDown b.blockMin e t (super * 32) (block - super * 32 + 1)

/-- first loop of `search_min_tree<direction>`, include/succinct_rmq/bp_vector_support.hpp:351-362, with `in_node_range`
(:336-339); at the root (`cur_node` 0 or 1) the program goes on with node 0 for ever or reads a wrong node: fuel runs out -/
def climb (t : List Int) (up : Bool) (e : Int) : Nat → Nat → M Nat
  | 0, _ => .error .diverge
  | fuel + 1, node =>
      if (node % 2 == 1) == up then climb t up e fuel (node / 2)
      else do
        let next := if up then node + 1 else node - 1
        let x ← rd t next
        if e ≥ x then .ok next else climb t up e fuel (node / 2)

/-- second loop of `search_min_tree<direction>`, include/succinct_rmq/bp_vector_support.hpp:366-377 -/
def descend (t : List Int) (internal : Nat) (up : Bool) (e : Int) : Nat → Nat → M Nat
  | 0, _ => .error .diverge
  | fuel + 1, node =>
      if node < internal then do
        let next := if up then node * 2 else node * 2 + 1
        let x ← rd t next
        descend t internal up e fuel (if e ≥ x then next else if up then next + 1 else next - 1)
      else .ok node

/-- `search_min_tree<direction>(block, excess)`, include/succinct_rmq/bp_vector_support.hpp:341-388; `-1U` if there is no
block -/
def searchTree (b : BP) (up : Bool) (block : Nat) (e : Int) : M Nat := do
  match ← b.searchSuper up block e with
  | some r => .ok r
  | none => do
      let node ← climb b.superMin up e (2 * b.internal + 1) (b.internal + block / 32)
      let leaf ← descend b.superMin b.internal up e (b.internal + 1) node
      let r ← b.searchSuper up ((leaf - b.internal) * 32 + (if up then 0 else 31)) e
      .ok (r.getD (2 ^ 32 - 1))

/-- the word at `pos + 1` with its lower bits removed and "open" put above, include/succinct_rmq/bp_vector_support.hpp:190-194;
the mask makes up for the (formally undefined) shift by 64 when `shift` is zero -/
def padOpen (word : W) (shift : Nat) : W :=
  (word >>> shift) ||| (if shift = 0 then 0 else W.all <<< (64 - shift))

/-- the `len` lower bits of a word with "close" put below, include/succinct_rmq/bp_vector_support.hpp:260-262; the mask makes
up for the (formally undefined) shift by 64 when `len` is zero -/
def padClose (word : W) (len : Nat) : W := if len = 0 then 0 else word <<< (64 - len)

/-- `find_close(pos)`, include/succinct_rmq/bp_vector_support.hpp:186-228 -/
def findClose (b : BP) (pos : Nat) : M Nat := do
  let wordPos := (pos + 1) / 64
  let shift := (pos + 1) % 64
  let x ← rd b.rs.bv.bits wordPos
  let padded := padOpen x shift
  let counts := byteCounts padded
  match ← closeInWord padded counts 1 with
  | some r => .ok (r + (pos + 1))
  | none => do
      let block := wordPos / 4
      let localExcess := int32 (2 * (((bytesSum counts).toNat : Int) - shift) - (64 - shift))
      match ← closeInBlock b.rs.bv.bits (block * 4) (localExcess + 1) (wordPos % 4 + 1) with
      | some r => .ok r
      | none => do
          let e ← b.excess pos
          let found ← b.searchTree true (block + 1) e
          let fe ← blockExcess b.rs found
          let r ← closeInBlock b.rs.bv.bits (found * 4) (fe - e) 0
          .ok (r.getD (2 ^ 32 - 1))

/-- `find_open(pos)`, include/succinct_rmq/bp_vector_support.hpp:255-296; `block - 1` is `2^64 - 1` for block 0 -/
def findOpen (b : BP) (pos : Nat) : M Nat := do
  let wordPos := pos / 64
  let len := pos % 64
  let x ← rd b.rs.bv.bits wordPos
  let padded := padClose x len
  let counts := byteCounts padded
  match ← openInWord padded counts 1 with
  | some r => .ok (r + pos - 64)
  | none => do
      let block := wordPos / 4
      let localExcess := -int32 (2 * ((bytesSum counts).toNat : Int) - len)
      match ← openInBlock b.rs.bv.bits (block * 4) (localExcess + 1) (wordPos % 4) with
      | some r => .ok r
      | none => do
          let e ← b.excess pos
          let found ← b.searchTree false (if block = 0 then 2 ^ 64 - 1 else block - 1) (e - 1)
          let fe ← blockExcess b.rs (found + 1)
          let r ← openInBlock b.rs.bv.bits (found * 4) (fe - (e - 1)) 4
          .ok (r.getD (2 ^ 32 - 1))

/-- `enclose(pos)`, include/succinct_rmq/bp_vector.hpp:48-51 -/
def enclose (b : BP) (pos : Nat) : M Nat := b.findOpen pos

end BP
end AC
