import Verif.Model.Words
/-!
# Bit vectors, include/bit_vector.hpp
-/
namespace AC

/-- `bit_vector_builder`, data members: include/bit_vector.hpp:226-229. `m_cur_word` always points to the last word
when it is used, and is not represented. -/
structure BVB where
  bits : List W
  size : Nat
  deriving DecidableEq

namespace BVB

/-- `bit_vector_builder(size, init)`, include/bit_vector.hpp:74-84 -/
def mk' (size : Nat) (init : Bool) : BVB :=
  let bits := List.replicate (wordsFor size) (if init then W.all else 0)
  let bits := if size ≠ 0 ∧ init ∧ size % 64 ≠ 0 then
      bits.dropLast ++ [(bits.getLastD 0) >>> (64 - size % 64)] else bits
  ⟨bits, size⟩

/-- the empty builder -/
def empty : BVB := ⟨[], 0⟩

/-- `*m_cur_word |= w` -/
def orBack (bits : List W) (w : W) : List W := bits.modify (bits.length - 1) (· ||| w)

/-- `push_back(b)`, include/bit_vector.hpp:90-98 -/
def pushBack (v : BVB) (b : Bool) : BVB :=
  let posInWord := v.size % 64
  let bits := if posInWord = 0 then v.bits ++ [0] else v.bits
  let bits := orBack bits ((if b then 1 else 0 : W) <<< posInWord)
  ⟨bits, v.size + 1⟩

/-- `zero_extend(n)`, include/bit_vector.hpp:100-107 -/
def zeroExtend (v : BVB) (n : Nat) : BVB :=
  let size := v.size + n
  let needed := wordsFor size - v.bits.length
  ⟨v.bits ++ List.replicate needed 0, size⟩

/-- `set(pos, b)`, include/bit_vector.hpp:109-114 -/
def set (v : BVB) (pos : Nat) (b : Bool) : M BVB := do
  let word := pos / 64
  let p := pos % 64
  let w ← rd v.bits word
  let w := w &&& ~~~((1 : W) <<< p)
  let w := w ||| ((if b then 1 else 0 : W) <<< p)
  let bits ← wr v.bits word w
  .ok { v with bits := bits }

/-- `set_bits(pos, bits, len)`, include/bit_vector.hpp:116-133 -/
def setBits (v : BVB) (pos : Nat) (x : W) (len : Nat) : M BVB := do
  if len = 0 then .ok v
  else do
    let mask := maskW len
    let word := pos / 64
    let p := pos % 64
    let w ← rd v.bits word
    let bits ← wr v.bits word ((w &&& ~~~(mask <<< p)) ||| (x <<< p))
    let stored := 64 - p
    if stored < len then do
      let w ← rd bits (word + 1)
      let bits ← wr bits (word + 1) ((w &&& ~~~(mask >>> stored)) ||| (x >>> stored))
      .ok { v with bits := bits }
    else .ok { v with bits := bits }

/-- `append_bits(bits, len)`, include/bit_vector.hpp:135-150 -/
def appendBits (v : BVB) (x : W) (len : Nat) : BVB :=
  if len = 0 then v
  else
    let p := v.size % 64
    if p = 0 then ⟨v.bits ++ [x], v.size + len⟩
    else
      let bits := orBack v.bits (x <<< p)
      if len > 64 - p then ⟨bits ++ [x >>> (64 - p)], v.size + len⟩
      else ⟨bits, v.size + len⟩

/-- `get_word64(pos)`, include/bit_vector.hpp:152-161 -/
def getWord64 (v : BVB) (pos : Nat) : M W := do
  let block := pos / 64
  let shift := pos % 64
  let w ← rd v.bits block
  let word := w >>> shift
  if shift ≠ 0 ∧ block + 1 < v.bits.length then do
    let w' ← rd v.bits (block + 1)
    .ok (word ||| (w' <<< (64 - shift)))
  else .ok word

/-- The loop of `append`, include/bit_vector.hpp:175-179, on all words but the last: writes at `cur` and `cur + 1` -/
def appendLoop (shift : Nat) : List W → List W → Nat → M (List W × Nat)
  | [], bits, cur => .ok (bits, cur)
  | w :: ws, bits, cur => do
      let c ← rd bits cur
      let bits ← wr bits cur (c ||| (w <<< shift))
      let bits ← wr bits (cur + 1) (w >>> (64 - shift))
      appendLoop shift ws bits (cur + 1)

/-- `append(rhs)`, include/bit_vector.hpp:163-187 -/
def append (v rhs : BVB) : M BVB := do
  if rhs.size = 0 then .ok v
  else do
    let pos := v.bits.length
    let shift := v.size % 64
    let size := v.size + rhs.size
    let bits := (v.bits ++ List.replicate (wordsFor size - pos) 0).take (wordsFor size)
    if shift = 0 then do
      let bits ← memcpy bits pos rhs.bits 0 rhs.bits.length
      .ok ⟨bits, size⟩
    else do
      let (bits, cur) ← appendLoop shift rhs.bits.dropLast bits (pos - 1)
      let last := rhs.bits.getLastD 0
      let c ← rd bits cur
      let bits ← wr bits cur (c ||| (last <<< shift))
      if cur < bits.length - 1 then do
        let bits ← wr bits (cur + 1) (last >>> (64 - shift))
        .ok ⟨bits, size⟩
      else .ok ⟨bits, size⟩

/-- `util::reverse_bits`, include/util.hpp:298-303, by its meaning (C46) -/
def reverseWord (x : W) : W := x.reverse

/-- The loop of `reverse`, include/bit_vector.hpp:193-203 -/
def reverseLoop (shift : Nat) : List W → W → List W
  | [], _ => []
  | w :: ws, rem =>
      if shift ≠ 64 then
        reverseWord (rem ||| (w <<< shift)) :: reverseLoop shift ws (w >>> (64 - shift))
      else reverseWord w :: reverseLoop shift ws rem

/-- `reverse()`, include/bit_vector.hpp:189-205 -/
def reverse (v : BVB) : BVB :=
  let shift := 64 - v.size % 64
  ⟨(reverseLoop shift v.bits 0).reverse, v.size⟩

/-- `resize(size)`, include/bit_vector.hpp:207-210 (it leaves `m_cur_word` as it is, so that `push_back` and
`append_bits` must not be called afterwards; this is not represented) -/
def resize (v : BVB) (size : Nat) : BVB :=
  ⟨(v.bits ++ List.replicate (wordsFor size - v.bits.length) 0).take (wordsFor size), size⟩

end BVB

/-- `bit_vector`, data members: include/bit_vector.hpp:397-398. `after` is the content of the 8 bytes of memory that
follow the buffer, which `get_word56` may read; nothing is assumed about it. -/
structure BV where
  bits : List W
  size : Nat
  after : W
  deriving DecidableEq

namespace BV

/-- `build(in)`, include/bit_vector.hpp:236-239 -/
def build (v : BVB) (after : W) : BV := ⟨v.bits, v.size, after⟩

/-- `operator[](i)`, include/bit_vector.hpp:259-264 -/
def get (v : BV) (i : Nat) : M Bool := do
  let w ← rd v.bits (i / 64)
  .ok ((w >>> (i % 64)) &&& 1 = 1)

/-- `get_bits(pos, len)`, include/bit_vector.hpp:266-280 -/
def getBits (v : BV) (pos len : Nat) : M W := do
  if len = 0 then .ok 0
  else do
    let block := pos / 64
    let shift := pos % 64
    let mask := maskW len
    if shift + len ≤ 64 then do
      let w ← rd v.bits block
      .ok ((w >>> shift) &&& mask)
    else do
      let w ← rd v.bits block
      let w' ← rd v.bits (block + 1)
      .ok ((w >>> shift) ||| ((w' <<< (64 - shift)) &&& mask))

/-- a word of the buffer or the word that follows it -/
def memWord (v : BV) (i : Nat) : M W := rd (v.bits ++ [v.after]) i

/-- `get_word56(pos)`, include/bit_vector.hpp:283-287: an unaligned little-endian read of 8 bytes at byte `pos / 8`,
shifted by `pos % 8` -/
def getWord56 (v : BV) (pos : Nat) : M W := do
  let byte := pos / 8
  let block := byte / 8
  let off := 8 * (byte % 8)
  let w ← v.memWord block
  if off = 0 then .ok (w >>> (pos % 8))
  else do
    let w' ← v.memWord (block + 1)
    .ok (((w >>> off) ||| (w' <<< (64 - off))) >>> (pos % 8))

/-- `get_word64(pos)`, include/bit_vector.hpp:290-299 -/
def getWord64 (v : BV) (pos : Nat) : M W := do
  let block := pos / 64
  let shift := pos % 64
  let w ← rd v.bits block
  let word := w >>> shift
  if shift ≠ 0 ∧ block + 1 < v.bits.length then do
    let w' ← rd v.bits (block + 1)
    .ok (word ||| (w' <<< (64 - shift)))
  else .ok word

/-- The loop of `predecessor1`, include/bit_vector.hpp:309-312 -/
def pred1Loop (v : BV) : Nat → W → M Nat
  | block, word =>
      match word.msb with
      | some r => .ok (block * 64 + r)
      | none =>
          match block with
          | 0 => .error .oob
          | b + 1 => do
              let w ← rd v.bits b
              pred1Loop v b w

/-- `predecessor1(pos)`, include/bit_vector.hpp:301-314 -/
def predecessor1 (v : BV) (pos : Nat) : M Nat := do
  let block := pos / 64
  let shift := 64 - pos % 64 - 1
  let w ← rd v.bits block
  pred1Loop v block ((w <<< shift) >>> shift)

end BV

/-- `bit_vector::unary_iterator`, data members: include/bit_vector.hpp:384-387, without `m_data` -/
structure UI where
  position : Nat
  buf : W
  deriving DecidableEq

namespace UI

/-- `unary_iterator(bv, pos)`, include/bit_vector.hpp:326-332 -/
def mk' (v : BV) (pos : Nat) : M UI := do
  let w ← rd v.bits (pos / 64)
  .ok ⟨pos, w &&& (W.all <<< (pos % 64))⟩

/-- The loop of `next`, include/bit_vector.hpp:341-344. Returns the position in the word, the word and `m_position`. -/
def nextLoop (v : BV) : Nat → Nat → W → M (Nat × W × Nat)
  | 0, _, _ => .error .diverge
  | fuel + 1, pos, buf =>
      match buf.lsb with
      | some l => .ok (l, buf, pos)
      | none => do
          let pos := pos + 64
          let buf ← rd v.bits (pos / 64)
          nextLoop v fuel pos buf

/-- `next()`, include/bit_vector.hpp:338-349. Returns the new position (which is also the result) in the state. -/
def next (v : BV) (u : UI) : M UI := do
  let (l, buf, pos) ← nextLoop v (v.bits.length + 1) u.position u.buf
  .ok ⟨pos / 64 * 64 + l, buf &&& (buf - 1)⟩

/-- The loop of `skip`, include/bit_vector.hpp:356-360 (`neg = false`), and of `skip0`, 373-377 (`neg = true`).
Returns `skipped`, the word and `m_position`. -/
def skipLoop (v : BV) (neg : Bool) (k : Nat) : Nat → Nat → W → Nat → M (Nat × W × Nat)
  | 0, _, _, _ => .error .diverge
  | fuel + 1, skipped, buf, pos =>
      if skipped + buf.popcount ≤ k then do
        let skipped := skipped + buf.popcount
        let pos := pos + 64
        let w ← rd v.bits (pos / 64)
        skipLoop v neg k fuel skipped (if neg then ~~~w else w) pos
      else .ok (skipped, buf, pos)

/-- `skip(k)`, include/bit_vector.hpp:352-365 -/
def skip (v : BV) (u : UI) (k : Nat) : M UI := do
  let (skipped, buf, pos) ← skipLoop v false k (v.bits.length + 1) 0 u.buf u.position
  let p := buf.select (k - skipped)
  .ok ⟨pos / 64 * 64 + p, buf &&& (W.all <<< p)⟩

/-- `skip0(k)`, include/bit_vector.hpp:368-382 -/
def skip0 (v : BV) (u : UI) (k : Nat) : M UI := do
  let buf := ~~~u.buf &&& (W.all <<< (u.position % 64))
  let (skipped, buf, pos) ← skipLoop v true k (v.bits.length + 1) 0 buf u.position
  let p := buf.select (k - skipped)
  .ok ⟨pos / 64 * 64 + p, ~~~buf &&& (W.all <<< p)⟩

end UI

/-- `bits_iterator<bit_vector>`, data members: include/bit_vector.hpp:67-70, without `m_data` -/
structure BI where
  pos : Nat
  buf : W
  avail : Nat
  deriving DecidableEq

namespace BI

/-- `bits_iterator(data, pos)`, include/bit_vector.hpp:16-22 -/
def mk' (pos : Nat) : BI := ⟨pos, 0, 0⟩

/-- `fill_buf`, include/bit_vector.hpp:62-65 -/
def fillBuf (v : BV) (b : BI) : M BI := do
  let w ← v.getWord64 b.pos
  .ok { b with buf := w, avail := 64 }

/-- `if (m_avail < len) fill_buf();`, include/bit_vector.hpp:26-28 -/
def refill (v : BV) (b : BI) (len : Nat) : M BI :=
  if b.avail < len then b.fillBuf v else .ok b

/-- `get_bits(len)`, include/bit_vector.hpp:24-38 -/
def getBits (v : BV) (b : BI) (len : Nat) : M (W × BI) := do
  let b ← b.refill v len
  if len ≠ 64 then
    .ok (b.buf &&& (((1 : W) <<< len) - 1), ⟨b.pos + len, b.buf >>> len, b.avail - len⟩)
  else .ok (b.buf, ⟨b.pos + len, b.buf, b.avail - len⟩)

/-- The loop of `skip_zeros`, include/bit_vector.hpp:42-47. Returns `zs` and the iterator. -/
def skipLoop (v : BV) : Nat → Nat → BI → M (Nat × BI)
  | 0, _, _ => .error .diverge
  | fuel + 1, zs, b =>
      if b.buf = 0 then do
        let pos := b.pos + b.avail
        let zs := zs + b.avail
        let b ← fillBuf v { b with pos := pos, avail := 0 }
        skipLoop v fuel zs b
      else .ok (zs, b)

/-- `skip_zeros()`, include/bit_vector.hpp:40-55. `m_avail -= l + 1` is one of 64-bit numbers: after `get_bits(64)`, which leaves the buffer as it is, fewer than
`l + 1` bits may be available. -/
def skipZeros (v : BV) (b : BI) : M (Nat × BI) := do
  let (zs, b) ← skipLoop v (v.bits.length + 2) 0 b
  let l := (b.buf.lsb).getD 0
  .ok (zs + l, ⟨b.pos + (l + 1), (b.buf >>> l) >>> 1, (b.avail + (2 ^ 64 - (l + 1))) % 2 ^ 64⟩)

end BI

/-- `bits_getter`, data members: include/bit_vector.hpp:423-427, without `m_data`; constructor :404-411 -/
structure BG where
  base : Nat
  width : Nat
  deriving DecidableEq

/-- `bits_getter::access(i)`, include/bit_vector.hpp:413-421 -/
def BG.access (v : BV) (g : BG) (i : Nat) : M W := do
  let pos := g.base + i * g.width
  let block := pos / 64
  let shift := pos % 64
  let w ← rd v.bits block
  if shift + g.width ≤ 64 then .ok ((w >>> shift) &&& maskW g.width)
  else do
    let w' ← rd v.bits (block + 1)
    .ok ((w >>> shift) ||| ((w' <<< (64 - shift)) &&& maskW g.width))

end AC
