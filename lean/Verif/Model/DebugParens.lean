import Verif.Model.DebugRmq
import Verif.Model.BpMatch
/-!
# Matching parentheses in a build with assertions

Every function here is the one of the same name in Model/BpMatch.lean, with the `assert`s of the code. A failed assertion is the
fault `aborted`.
-/
namespace AC
namespace BP
open Util

/-- the look-up in `find_close_in_word`, include/succinct_rmq/bp_vector_support.hpp:91-99 -/
def pickCloseD (word cum : W) : Option Nat → M (Option Nat)
  | some shift => do
      let p ← rd (ExcessTables.fwdPos ((word >>> shift) &&& 0xFF).toNat) ((cum >>> shift) &&& 0xFF).toNat
      check (0 < p)
      .ok (some (shift + p - 1))
  | none => .ok none

/-- `find_close_in_word(word, byte_counts, cur_exc, ret)`, include/succinct_rmq/bp_vector_support.hpp:74-100 -/
def closeInWordD (word byteCounts : W) (cur : Int) : M (Option Nat) := do
  check (0 < cur ∧ cur ≤ 64)
  pickCloseD word (sumsUp byteCounts cur)
    (W.lsb (leqStep8 (sumsUp byteCounts cur) (gather (fun i => (ExcessTables.fwd (byteOf word i)).min))))

/-- the look-up in `find_open_in_word`, include/succinct_rmq/bp_vector_support.hpp:122-130 -/
def pickOpenD (word cum : W) : Option Nat → M (Option Nat)
  | some shift => do
      let p ← rd (ExcessTables.bwdPos ((word >>> (64 - shift - 8)) &&& 0xFF).toNat) ((cum >>> shift) &&& 0xFF).toNat
      check (0 < p)
      .ok (some (64 - (shift + p)))
  | none => .ok none

/-- `find_open_in_word(word, byte_counts, cur_exc, ret)`, include/succinct_rmq/bp_vector_support.hpp:102-131 -/
def openInWordD (word byteCounts : W) (cur : Int) : M (Option Nat) := do
  check (0 < cur ∧ cur ≤ 64)
  pickOpenD word (sumsDown byteCounts cur) (W.lsb (leqStep8 (sumsDown byteCounts cur)
    (gather (fun i => ExcessTables.bwdMin ((word >>> (64 - i * 8 - 8)) &&& 0xFF).toNat))))

/-- loop of `find_close_in_block`, include/succinct_rmq/bp_vector_support.hpp:169-182 -/
def closeLoopD (bits : List W) : Nat → Nat → Int → M (Option Nat)
  | 0, _, _ => .ok none
  | n + 1, w, e => do
      let x ← rd bits w
      check (0 < e)
      match ← ifSmall closeInWordD x e with
      | some r => .ok (some (r + w * 64))
      | none => closeLoopD bits n (w + 1) (e + wordExcess x)

/-- `find_close_in_block(block_offset, excess, start, ret)`, include/succinct_rmq/bp_vector_support.hpp:161-184 -/
def closeInBlockD (bits : List W) (off : Nat) (e : Int) (start : Nat) : M (Option Nat) :=
  if e > int32 (((4 - start) * 64 : Nat) : Int) then .ok none else do
    check (0 < e)
    closeLoopD bits (4 - start) (off + start) e

/-- loop of `find_open_in_block`, include/succinct_rmq/bp_vector_support.hpp:238-251 -/
def openLoopD (bits : List W) (off : Nat) : Nat → Int → M (Option Nat)
  | 0, _ => .ok none
  | n + 1, e => do
      check (0 < e)
      let x ← rd bits (off + n)
      match ← ifSmall openInWordD x e with
      | some r => .ok (some (r + (off + n) * 64))
      | none => openLoopD bits off n (e - wordExcess x)

/-- `find_open_in_block(block_offset, excess, start, ret)`, include/succinct_rmq/bp_vector_support.hpp:230-253 -/
def openInBlockD (bits : List W) (off : Nat) (e : Int) (start : Nat) : M (Option Nat) :=
  if e > int32 ((start * 64 : Nat) : Int) then .ok none else do
    check (0 ≤ e)
    openLoopD bits off start e

/-- `search_block_in_superblock<direction>(block, excess, found_block)`, include/succinct_rmq/bp_vector_support.hpp:298-325 -/
def searchSuperD (b : BP) (up : Bool) (block : Nat) (t : Int) : M (Option Nat) := do
  let super := block / 32
  let e ← blockExcessD b.rs (super * 32)
  if up then blockUp b.blockMin e t (min ((super + 1) * 32) b.blockMin.length - block) block
  else blockDown b.blockMin e t (super * 32) (block - super * 32 + 1)

/-- `in_node_range(node, excess)`, include/succinct_rmq/bp_vector_support.hpp:336-339: a node that spans nothing holds the size -/
def inNodeD (t : List Int) (size : Int) (node : Nat) (e : Int) : M Bool := do
  let x ← rd t node
  check (x ≠ size)
  .ok (decide (e ≥ x))

/-- first loop of `search_min_tree<direction>`, include/succinct_rmq/bp_vector_support.hpp:351-362 -/
def climbD (t : List Int) (size : Int) (up : Bool) (e : Int) : Nat → Nat → M Nat
  | 0, _ => .error .diverge
  | fuel + 1, node => do
      check (node ≠ 0)
      if (node % 2 == 1) == up then climbD t size up e fuel (node / 2)
      else do
        let next := if up then node + 1 else node - 1
        let i ← inNodeD t size next e
        if i then .ok next else climbD t size up e fuel (node / 2)

/-- second loop of `search_min_tree<direction>`, include/succinct_rmq/bp_vector_support.hpp:366-377 -/
def descendD (t : List Int) (size : Int) (internal : Nat) (up : Bool) (e : Int) : Nat → Nat → M Nat
  | 0, _ => .error .diverge
  | fuel + 1, node =>
      if node < internal then do
        let next := if up then node * 2 else node * 2 + 1
        let i ← inNodeD t size next e
        if i then descendD t size internal up e fuel next
        else do
          let next := if up then next + 1 else next - 1
          let i ← inNodeD t size next e
          check (i = true)
          descendD t size internal up e fuel next
      else .ok node

/-- `search_min_tree<direction>(block, excess)`, include/succinct_rmq/bp_vector_support.hpp:341-388 -/
def searchTreeD (b : BP) (up : Bool) (block : Nat) (e : Int) : M Nat := do
  match ← b.searchSuperD up block e with
  | some r => .ok r
  | none => do
      let node ← climbD b.superMin (int32 b.rs.bv.size) up e (2 * b.internal + 1) (b.internal + block / 32)
      check (node ≠ 0)
      let leaf ← descendD b.superMin (int32 b.rs.bv.size) b.internal up e (b.internal + 1) node
      match ← b.searchSuperD up ((leaf - b.internal) * 32 + (if up then 0 else 31)) e with
      | some r => .ok r
      | none => .error .aborted

/-- `find_close(pos)`, include/succinct_rmq/bp_vector_support.hpp:186-228 -/
def findCloseD (b : BP) (pos : Nat) : M Nat := do
  let bit ← b.rs.bv.getD' pos
  check (bit = true)
  let wordPos := (pos + 1) / 64
  let shift := (pos + 1) % 64
  let x ← rd b.rs.bv.bits wordPos
  let padded := padOpen x shift
  let counts := byteCounts padded
  match ← closeInWordD padded counts 1 with
  | some r => .ok (r + (pos + 1))
  | none => do
      let block := wordPos / 4
      let localExcess := int32 (2 * (((bytesSum counts).toNat : Int) - shift) - (64 - shift))
      match ← closeInBlockD b.rs.bv.bits (block * 4) (localExcess + 1) (wordPos % 4 + 1) with
      | some r => .ok r
      | none => do
          let e ← b.excessD pos
          let found ← b.searchTreeD true (block + 1) e
          let fe ← blockExcessD b.rs found
          match ← closeInBlockD b.rs.bv.bits (found * 4) (fe - e) 0 with
          | some r => .ok r
          | none => .error .aborted

/-- `find_open(pos)`, include/succinct_rmq/bp_vector_support.hpp:255-296 -/
def findOpenD (b : BP) (pos : Nat) : M Nat := do
  check (pos ≠ 0)
  let wordPos := pos / 64
  let len := pos % 64
  let x ← rd b.rs.bv.bits wordPos
  let padded := padClose x len
  let counts := byteCounts padded
  match ← openInWordD padded counts 1 with
  | some r => .ok (r + pos - 64)
  | none => do
      let block := wordPos / 4
      let localExcess := -int32 (2 * ((bytesSum counts).toNat : Int) - len)
      match ← openInBlockD b.rs.bv.bits (block * 4) (localExcess + 1) (wordPos % 4) with
      | some r => .ok r
      | none => do
          let e ← b.excessD pos
          let found ← b.searchTreeD false (if block = 0 then 2 ^ 64 - 1 else block - 1) (e - 1)
          let fe ← blockExcessD b.rs (found + 1)
          match ← openInBlockD b.rs.bv.bits (found * 4) (fe - (e - 1)) 4 with
          | some r => .ok r
          | none => .error .aborted

/-- `enclose(pos)`, include/succinct_rmq/bp_vector.hpp:48-51 -/
def encloseD (b : BP) (pos : Nat) : M Nat := do
  let bit ← b.rs.bv.getD' pos
  check (bit = true)
  b.findOpenD pos

end BP
end AC
