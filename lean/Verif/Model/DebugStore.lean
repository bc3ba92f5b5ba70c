import Verif.Model.CompactEf
import Verif.Model.CompactVector
/-!
# The storage classes in a build with assertions

Every function here is the one of the same name in Model/BitVector.lean, Model/DArray.lean, Model/EliasFano.lean,
Model/CompactEf.lean, Model/CompactVector.lean, with the `assert`s of the code (CMakeLists.txt:4-12: they are compiled when
`CMAKE_BUILD_TYPE` is not `Release`). A failed assertion is the fault `aborted`.
-/
namespace AC

/-- `util::msb(x)`, include/util.hpp:190-197 -/
def msbNatD (x : Nat) : M Nat := do
  check (x ≠ 0)
  .ok (msbNat x)

/-- `select_in_word(x, k)`, include/util.hpp:326-341 -/
def W.selectD (x : W) (k : Nat) : M Nat := do
  check (k < x.popcount)
  .ok (x.select k)

/-- `len == 64 || (bits >> len) == 0`, include/bit_vector.hpp:119, :137 -/
def fits (x : W) (len : Nat) : Prop := len = 64 ∨ x >>> len = 0

instance (x : W) (len : Nat) : Decidable (fits x len) := inferInstanceAs (Decidable (_ ∨ _))

/-- `set_bits(pos, bits, len)`, include/bit_vector.hpp:116-133; the second assertion comes after the return for `len = 0` -/
def BVB.setBitsD (v : BVB) (pos : Nat) (x : W) (len : Nat) : M BVB := do
  check (pos + len ≤ v.size)
  if len = 0 then .ok v
  else do
    check (fits x len)
    v.setBits pos x len

/-- `append_bits(bits, len)`, include/bit_vector.hpp:135-150; the assertion comes after the return for `len = 0` -/
def BVB.appendBitsD (v : BVB) (x : W) (len : Nat) : M BVB :=
  if len = 0 then .ok v
  else do
    check (fits x len)
    .ok (v.appendBits x len)

namespace BV

/-- `operator[](i)`, include/bit_vector.hpp:259-264 -/
def getD' (v : BV) (i : Nat) : M Bool := do
  check (i < v.size)
  v.get i

/-- `get_bits(pos, len)`, include/bit_vector.hpp:266-280 -/
def getBitsD (v : BV) (pos len : Nat) : M W := do
  check (pos + len ≤ v.size)
  v.getBits pos len

/-- `get_word64(pos)`, include/bit_vector.hpp:290-299 -/
def getWord64D (v : BV) (pos : Nat) : M W := do
  check (pos < v.size)
  v.getWord64 pos

/-- The loop of `predecessor1`, include/bit_vector.hpp:309-312 -/
def pred1LoopD (v : BV) : Nat → W → M Nat
  | block, word =>
      match word.msb with
      | some r => .ok (block * 64 + r)
      | none =>
          match block with
          | 0 => .error .aborted
          | b + 1 => do
              let w ← rd v.bits b
              pred1LoopD v b w

/-- `predecessor1(pos)`, include/bit_vector.hpp:301-314 -/
def predecessor1D (v : BV) (pos : Nat) : M Nat := do
  check (pos < v.size)
  let block := pos / 64
  let shift := 64 - pos % 64 - 1
  let w ← rd v.bits block
  pred1LoopD v block ((w <<< shift) >>> shift)

end BV

namespace UI

/-- `skip(k)`, include/bit_vector.hpp:352-365 -/
def skipD (v : BV) (u : UI) (k : Nat) : M UI := do
  let (skipped, buf, pos) ← skipLoop v false k (v.bits.length + 1) 0 u.buf u.position
  check (buf ≠ 0)
  let p ← buf.selectD (k - skipped)
  .ok ⟨pos / 64 * 64 + p, buf &&& (W.all <<< p)⟩

/-- `skip0(k)`, include/bit_vector.hpp:368-382 -/
def skip0D (v : BV) (u : UI) (k : Nat) : M UI := do
  let buf := ~~~u.buf &&& (W.all <<< (u.position % 64))
  let (skipped, buf, pos) ← skipLoop v true k (v.bits.length + 1) 0 buf u.position
  check (buf ≠ 0)
  let p ← buf.selectD (k - skipped)
  .ok ⟨pos / 64 * 64 + p, ~~~buf &&& (W.all <<< p)⟩

end UI

/-- `darray::select(bv, idx)`, include/ef/darray.hpp:60-92 -/
def DA.selectD (neg : Bool) (d : DA) (v : BV) (idx : Nat) : M Nat := do
  check (idx < d.positions)
  let block ← rd d.blocks (idx / blockSize)
  if block < 0 then
    rd d.over ((-block - 1).toNat + idx % blockSize)
  else do
    let sub ← rd d.subs (idx / subblockSize)
    let start := block.toNat + sub
    let rem := idx % subblockSize
    if rem = 0 then .ok start
    else do
      let w ← rd v.bits (start / 64)
      let (k, word, rem) ← selLoop neg v.bits (v.bits.length + 1) (start / 64)
        (getter neg w &&& (W.all <<< (start % 64))) rem
      let p ← word.selectD rem
      .ok (64 * k + p)

namespace EF

/-- `m_l`, include/ef/ef_sequence.hpp:223, with the assertion of `util::msb` -/
def lowWidthD (n u : Nat) : M Nat := if n ≠ 0 ∧ u / n ≠ 0 then msbNatD (u / n) else .ok 0

/-- `if (m_l) bvb_low_bits.append_bits(v & low_mask, m_l)`, include/ef/ef_sequence.hpp:236 -/
def appendLowD (l : Nat) (v : W) (b : BVB) : M BVB := if l ≠ 0 then b.appendBitsD (v &&& maskW l) l else .ok b

/-- the loop of `compress`, include/ef/ef_sequence.hpp:231-239 -/
def compressLoopD (l : Nat) : Nat → W → List W → BVB → BVB → M (BVB × BVB)
  | _, _, [], lowB, highB => .ok (lowB, highB)
  | i, last, v :: vs, lowB, highB =>
      if i ≠ 0 ∧ v.toNat < last.toNat then .error .thrown
      else do
        let lowB ← appendLowD l v lowB
        let highB ← highB.set ((v >>> l).toNat + i) true
        compressLoopD l (i + 1) v vs lowB highB

/-- `compress(begin, n, u)`, include/ef/ef_sequence.hpp:221-244 -/
def compressD (vs : List W) (u : W) : M EF := do
  let l ← lowWidthD vs.length u.toNat
  let (lowB, highB) ← compressLoopD l 0 0 vs BVB.empty (BVB.mk' (vs.length + (u >>> l).toNat + 1) false)
  let high := BV.build highB 0
  let d1 ← DA.build false high
  .ok ⟨l, high, d1, BV.build lowB 0, vs.length⟩

/-- `build(from)`, include/ef/ef_sequence.hpp:15-18 -/
def buildD (vs : List W) : M EF :=
  match vs.getLast? with
  | none => .error .oob
  | some u => compressD vs u

/-- `std::is_sorted(values.begin(), values.end())`, include/ef/ef_sequence.hpp:52 -/
def sortedW : List W → Bool
  | a :: b :: vs => decide (a.toNat ≤ b.toNat) && sortedW (b :: vs)
  | _ => true

/-- `build(begin, n, pointers)`, include/ef/ef_sequence.hpp:25-54 -/
def buildRunsD (vs : List W) (pointers : List Nat) : M EF := do
  let p0 ← rd pointers 0
  let p1 ← rd pointers 1
  let values ← sumLoop (pointers.drop 2) p1 (p1 - p0) 0 0 [] vs
  check (values.length = vs.length)
  check (sortedW values = true)
  buildD values

/-- `access(i)`, include/ef/ef_sequence.hpp:135-139 -/
def accessD (e : EF) (i : Nat) : M Nat := do
  check (i < e.size)
  let p ← DA.selectD false e.d1 e.high i
  let lo ← e.low.getBitsD (i * e.l) e.l
  .ok ((BitVec.ofNat 64 (p - i) <<< e.l) ||| lo).toNat

/-- `operator[](i)`, include/ef/ef_sequence.hpp:168-170 -/
def pairD (e : EF) (i : Nat) : M Range := do
  let a ← e.accessD i
  let b ← e.accessD (i + 1)
  .ok ⟨a, b⟩

/-- the low bits read by the constructor of the iterator, include/ef/ef_sequence.hpp:68-75 -/
def lowInitD (e : EF) (pos : Nat) : M (W × Nat × Nat) :=
  if e.l ≠ 0 then do
    let w ← e.low.getWord64D (pos * e.l)
    .ok (w, 64 / e.l, 64 / e.l - 1)
  else .ok (0, 0, e.d1.positions)

/-- `at(pos)`: `iterator(ef, pos)`, include/ef/ef_sequence.hpp:59-83; `universe()` (:176-178) is evaluated before the first
assertion -/
def atD (e : EF) (pos : Nat) : M EFI := do
  let u ← e.accessD (e.size - 1)
  check (pos < e.size)
  let (buf, chunks, avail) ← e.lowInitD pos
  if e.d1.positions = 0 then .ok ⟨BitVec.ofNat 64 u, pos, 0, ⟨0, 0⟩, buf, chunks, avail⟩
  else do
    let p ← DA.selectD false e.d1 e.high pos
    let it ← UI.mk' e.high p
    let it ← UI.next e.high it
    check (e.l < 64)
    .ok ⟨BitVec.ofNat 64 u, pos, it.position, it, buf, chunks, avail⟩

/-- `end()`, include/ef/ef_sequence.hpp:184-186, without assertions -/
def endIt (e : EF) : M EFI := e.at' e.size

/-- `end()`, include/ef/ef_sequence.hpp:184-186, with assertions -/
def endItD (e : EF) : M EFI := e.atD e.size

/-- `operator*`, include/ef/ef_sequence.hpp:101-108 -/
def derefD (e : EF) (i : EFI) : M (Nat × EFI) :=
  if i.pos = e.size then .ok (i.val.toNat, i)
  else do
    let p ← DA.selectD false e.d1 e.high i.pos
    check (i.high = p)
    .ok ((e.value i).toNat, { i with val := e.value i })

/-- `if (!m_chunks_avail--) ...`, include/ef/ef_sequence.hpp:115-118 -/
def refillD (e : EF) (i : EFI) : M EFI :=
  if i.avail = 0 then do
    let w ← e.low.getWord64D (i.pos * e.l)
    .ok { i with lowBuf := w, avail := (i.chunks + 2 ^ 64 - 1) % 2 ^ 64 }
  else .ok { i with avail := i.avail - 1 }

/-- `operator++`, include/ef/ef_sequence.hpp:110-119 -/
def incD (e : EF) (i : EFI) : M EFI :=
  if i.pos + 1 = e.size then .ok { i with pos := i.pos + 1 }
  else do
    let it ← UI.next e.high i.it
    e.refillD { i with pos := i.pos + 1, it := it, high := it.position, lowBuf := i.lowBuf >>> e.l }

/-- an `ef_sequence` as a sequence to be searched -/
def seqD (e : EF) : Seq := ⟨e.accessD, EFI, e.atD, e.derefD, e.incD⟩

/-- enumeration of `n` elements: `*it; ++it;` repeated -/
def scanD (e : EF) : Nat → EFI → M (List Nat)
  | 0, _ => .ok []
  | n + 1, it => do
      let (v, it) ← e.derefD it
      let it ← e.incD it
      let vs ← scanD e n it
      .ok (v :: vs)

end EF

/-- `range::is_valid`, include/util_types.hpp:47-54 -/
def Range.validAssert (r : Range) : Prop := ¬ (r.b = NOT_FOUND ∨ r.e = NOT_FOUND ∨ r.b > r.e)

instance (r : Range) : Decidable r.validAssert := inferInstanceAs (Decidable (¬ _))

namespace EF

/-- `find(r, id)`, include/ef/ef_sequence.hpp:145-150, with `previous_range_upperbound` (:246-249), whose assertion is the
first one of the two here -/
def findInD (e : EF) (r : Range) (id : Nat) : M Nat := do
  check r.validAssert
  check (r.e ≤ e.size)
  e.seqD.findIn r id

/-- `find(r, lex)`, include/ef/ef_sequence.hpp:152-166 -/
def findRangeD (e : EF) (r lex : Range) : M Range := do
  check r.validAssert
  check (r.e ≤ e.size)
  e.seqD.findRange r lex

end EF

namespace CEF

/-- `lower_bits`, include/ef/ef_parameters.hpp:25, with the assertion of `util::msb` -/
def lowerBitsD (u n : Nat) : M Nat := if u > n then msbNatD (u / n) else .ok 0

/-- `ef_offsets(base_offset, universe, n, params)`, include/ef/ef_parameters.hpp:18-39: the assertion is the body of the
constructor (:37-39), after the members -/
def offsetsD (base u n : Nat) : M Off := do
  let _ ← lowerBitsD u n
  check (0 < n)
  .ok (offsets base u n)

/-- the loop of `set_ptr0s`, include/ef/compact_ef.hpp:33-41 -/
def setPtr0sLoopD (o : Off) (endZeros rank : Nat) : Nat → Nat → BVB → M BVB
  | 0, _, _ => .error .diverge
  | fuel + 1, ptr0, b =>
      if ptr0 * 2 ^ logSampling0 < endZeros then
        if ptr0 = 0 then setPtr0sLoopD o endZeros rank fuel (ptr0 + 1) b
        else do
          check (o.p0 + (ptr0 - 1) * o.psize + o.psize ≤ o.p1)
          let b ← b.setBitsD (o.p0 + (ptr0 - 1) * o.psize) (BitVec.ofNat 64 (ptr0 * 2 ^ logSampling0 + rank)) o.psize
          setPtr0sLoopD o endZeros rank fuel (ptr0 + 1) b
      else .ok b

/-- `set_ptr0s(begin, end, rank_end)`, include/ef/compact_ef.hpp:29-42 -/
def setPtr0sD (o : Off) (begin end' rank : Nat) (b : BVB) : M BVB :=
  setPtr0sLoopD o (end' - rank) rank (end' + 1) (ceilDiv (begin - rank) (2 ^ logSampling0)) b

/-- `if (i and (i & sample1_mask) == 0) ...`, include/ef/compact_ef.hpp:63-69 -/
def setPtr1D (o : Off) (i high : Nat) (b : BVB) : M BVB :=
  if i ≠ 0 ∧ i % 2 ^ logSampling1 = 0 then do
    check (0 < i / 2 ^ logSampling1)
    check (o.p1 + (i / 2 ^ logSampling1 - 1) * o.psize + o.psize ≤ o.hb)
    b.setBitsD (o.p1 + (i / 2 ^ logSampling1 - 1) * o.psize) (BitVec.ofNat 64 high) o.psize
  else .ok b

/-- the loop of `build`, include/ef/compact_ef.hpp:44-78 -/
def buildLoopD (o : Off) : List Nat → Nat → Nat → Nat → BVB → M BVB
  | [], _, _, lastHigh, b => setPtr0sD o (lastHigh + 1) o.hlen o.n b
  | v :: vs, i, last, lastHigh, b =>
      if i ≠ 0 ∧ v < last then .error .thrown
      else do
        check (v ≤ o.univ)
        let high := v / 2 ^ o.l + i + 1
        let b ← b.set (o.hb + high) true
        check (o.lo + i * o.l + o.l ≤ o.last)
        let b ← b.setBitsD (o.lo + i * o.l) (BitVec.ofNat 64 v &&& maskW o.l) o.l
        let b ← setPtr1D o i high b
        let b ← setPtr0sD o (lastHigh + 1) high i b
        buildLoopD o vs (i + 1) v high b

/-- `compact_ef::build(bvb, begin, universe, n)`, include/ef/compact_ef.hpp:15-79 -/
def buildD (b : BVB) (u : Nat) (vs : List Nat) : M BVB :=
  if vs.length = 0 ∧ 0 < u then .error .unreachable
  else do
    let o ← offsetsD b.size u vs.length
    buildLoopD o vs 0 0 0 (b.zeroExtend (o.last - b.size))

end CEF

namespace CEI
open CEF

/-- `read_next` at `m_position = pos`, include/ef/compact_ef.hpp:305-309 (`next_reader::operator()`, 325-331, has no
assertion) -/
def readNextD (v : BV) (o : Off) (pos : Nat) (he : UI) : M (Nat × UI) := do
  check (pos < o.n)
  readNext v o pos he

/-- `slow_access(position)`, include/ef/compact_ef.hpp:228-252 -/
def slowAccessD (v : BV) (it : CEI) (position : Nat) : M CEI :=
  if position = it.off.n then .ok { it with pos := position, value := it.off.univ }
  else do
    let (he, k) ← seekOne v it position
    let he ← he.skipD v k
    let (val, he) ← readNextD v it.off position he
    .ok ⟨it.off, position, val, he⟩

/-- `access(position)`, include/ef/compact_ef.hpp:113-135 -/
def accessD (v : BV) (it : CEI) (position : Nat) : M CEI := do
  check (position ≤ it.off.n)
  if position > it.pos ∧ position - it.pos ≤ linearScanThreshold then
    if position = it.off.n then .ok { it with pos := position, value := it.off.univ }
    else do
      let he ← nextN v (position - it.pos) it.he
      let low ← readLow v it.off position
      .ok ⟨it.off, position, compose it.off he.position position low, he⟩
  else slowAccessD v it position

/-- `iterator(bv, offset, universe, n)`, include/ef/compact_ef.hpp:86-93 -/
def mkD (v : BV) (offset u n : Nat) : M CEI :=
  if n = 0 ∧ 0 < u then .error .unreachable
  else do
    let o ← offsetsD offset u n
    accessD v ⟨o, 0, 0, ⟨0, 0⟩⟩ 0

/-- `next()`, include/ef/compact_ef.hpp:179-188, and `operator++`, 99-107 -/
def nextD (v : BV) (it : CEI) : M CEI := do
  check (it.pos + 1 ≤ it.off.n)
  if it.pos + 1 < it.off.n then do
    let (val, he) ← readNextD v it.off (it.pos + 1) it.he
    .ok ⟨it.off, it.pos + 1, val, he⟩
  else .ok { it with pos := it.pos + 1, value := it.off.univ }

/-- the loop of `next_geq_by_scan`, include/ef/compact_ef.hpp:139-147; the assertion after the loop is its negated condition -/
def scanLoopD (v : BV) (x : Nat) : Nat → CEI → M CEI
  | 0, _ => .error .diverge
  | fuel + 1, it =>
      if it.pos ≠ it.off.n then do
        check (it.pos < it.off.n)
        if it.value ≥ x then .ok it
        else do
          let it ← it.nextD v
          scanLoopD v x fuel it
      else .ok { it with value := it.off.univ }

/-- `next_geq_by_scan(lower_bound)`, include/ef/compact_ef.hpp:137-148: the first assertion calls `access`, which moves the
enumerator, and compares its result with `m_value`. The order of evaluation of the two operands of `==` is unspecified; here
`m_value` is read before the call. -/
def nextGeqByScanD (v : BV) (it : CEI) (x : Nat) : M CEI := do
  let it' ← it.accessD v it.pos
  check (it'.value = it.value)
  scanLoopD v x (it'.off.n + 1) it'

/-- `slow_next_geq(lower_bound)`, include/ef/compact_ef.hpp:254-297 -/
def slowNextGeqD (v : BV) (it : CEI) (x : Nat) : M CEI :=
  if x ≥ it.off.univ then it.accessD v it.off.n
  else do
    let (he, k) ← seekZero v it x
    let he ← he.skip0D v k
    slowLoop v it.off x (it.off.n + 1) (he.position - it.off.hb - x / 2 ^ it.off.l) he

/-- `next_geq(lower_bound)`, include/ef/compact_ef.hpp:150-173 -/
def nextGeqD (v : BV) (it : CEI) (x : Nat) : M CEI :=
  if x > it.value ∧ x / 2 ^ it.off.l - it.value / 2 ^ it.off.l ≤ linearScanThreshold then
    fastLoop v it.off x (it.off.n + 1) it.pos it.he
  else slowNextGeqD v it x

/-- `prev_value()`, include/ef/compact_ef.hpp:190-205 -/
def prevHighD (v : BV) (it : CEI) : M Nat :=
  if it.pos < it.off.n then v.predecessor1D (it.he.position - 1) else v.predecessor1D (it.off.lo - 1)

@[inherit_doc prevHighD]
def prevValueD (v : BV) (it : CEI) : M Nat :=
  if it.pos = 0 then .ok 0
  else do
    let h ← prevHighD v it
    let low ← readLow v it.off (it.pos - 1)
    .ok (compose it.off h (it.pos - 1) low)

/-- the loop of `intersects`, include/ef/compact_ef.hpp:219-223, `k` more steps -/
def intersectsLoopD (v : BV) (r : Range) : Nat → CEI → M (Bool × CEI)
  | 0, it => .ok (false, it)
  | k + 1, it => do
      let it ← it.nextD v
      if it.value > r.e then .ok (false, it)
      else if r.b ≤ it.value ∧ it.value ≤ r.e then .ok (true, it)
      else intersectsLoopD v r k it

/-- `intersects(r)`, include/ef/compact_ef.hpp:215-225 -/
def intersectsD (v : BV) (it : CEI) (r : Range) : M (Bool × CEI) := do
  let it ← it.accessD v 0
  if it.value > r.e then .ok (false, it)
  else if r.b ≤ it.value ∧ it.value ≤ r.e then .ok (true, it)
  else if it.off.n = 0 then .error .diverge
  else intersectsLoopD v r (it.off.n - 1) it

end CEI

namespace CVB

/-- `push_back(v)`, include/compact_vector.hpp:144-164 -/
def pushBackD (b : CVB) (v : W) : M CVB := do
  check (b.width ≠ 0)
  b.pushBack v

/-- `set(i, v)`, include/compact_vector.hpp:123-142 -/
def setD (b : CVB) (i : Nat) (v : W) : M CVB := do
  check (b.width ≠ 0)
  check (i < b.size)
  b.set i v

/-- `fill(begin, n)`, include/compact_vector.hpp:112-121 -/
def fillD (b : CVB) : List W → M CVB
  | [] => .ok b
  | v :: vs => do
      let b ← b.pushBackD v
      b.fillD vs

/-- a sequence of calls of `set(i, v)`, include/compact_vector.hpp:123-142 -/
def setsD (b : CVB) : List (Nat × W) → M CVB
  | [] => .ok b
  | (i, v) :: os => do
      let b ← b.setD i v
      b.setsD os

end CVB

namespace CV

/-- `build(begin, n, w)`, include/compact_vector.hpp:233-238 with `builder::build`, :178-184 -/
def buildD (vs : List W) (w : Nat) (after : W) : M CV := do
  let b ← CVB.mk' vs.length w
  let b ← b.fillD vs
  .ok ⟨b.size, b.width, maskW b.width, b.bits, after⟩

/-- `operator[](i)`, include/compact_vector.hpp:240-249 -/
def getD' (c : CV) (i : Nat) : M W := do
  check (i < c.size)
  c.get i

/-- `access(pos)`, include/compact_vector.hpp:252-259 -/
def accessD (c : CV) (pos : Nat) : M W := do
  check (pos < c.size)
  c.access pos

end CV

end AC
