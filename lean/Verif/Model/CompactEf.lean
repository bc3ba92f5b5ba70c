import Verif.Model.BitVector
import Verif.Model.EliasFano
/-!
# Elias-Fano lists inside a shared bit vector: include/ef/ef_parameters.hpp and include/ef/compact_ef.hpp
-/
namespace AC

namespace CEF

/-- `ef_parameters::ef_log_sampling0`, include/ef/ef_parameters.hpp:7-12 -/
def logSampling0 : Nat := 9

/-- `ef_parameters::ef_log_sampling1`, include/ef/ef_parameters.hpp:7-12 -/
def logSampling1 : Nat := 8

/-- `ef_offsets`, data members: include/ef/ef_parameters.hpp:41-57, without `mask` (which is `maskW l`) and the two
`log_sampling` constants -/
structure Off where
  univ : Nat
  n : Nat
  l : Nat
  hlen : Nat
  psize : Nat
  p0 : Nat
  p1 : Nat
  hb : Nat
  lo : Nat
  last : Nat
  deriving DecidableEq

/-- `lower_bits`, include/ef/ef_parameters.hpp:25; the quotient is not evaluated when `universe <= n` -/
def lowerBits (u n : Nat) : Nat := if u > n then msbNat (u / n) else 0

/-- `ef_offsets(base_offset, universe, n, params)`, include/ef/ef_parameters.hpp:18-39. Quotients by `n = 0` are excluded by
the callers `build` and `iter`. -/
def offsets (base u n : Nat) : Off :=
  let l := lowerBits u n
  let hlen := n + u / 2 ^ l + 2
  let psize := ceilLog2 hlen
  let pointers0 := (hlen - n) / 2 ^ logSampling0
  let pointers1 := n / 2 ^ logSampling1
  let p1 := base + pointers0 * psize
  let hb := p1 + pointers1 * psize
  let lo := hb + hlen
  { univ := u, n := n, l := l, hlen := hlen, psize := psize, p0 := base, p1 := p1, hb := hb, lo := lo, last := lo + n * l }

/-- the loop of `set_ptr0s`, include/ef/compact_ef.hpp:33-41, over the counter `ptr0` -/
def setPtr0sLoop (o : Off) (endZeros rank : Nat) : Nat → Nat → BVB → M BVB
  | 0, _, _ => .error .diverge
  | fuel + 1, ptr0, b =>
      if ptr0 * 2 ^ logSampling0 < endZeros then
        if ptr0 = 0 then setPtr0sLoop o endZeros rank fuel (ptr0 + 1) b
        else do
          let b ← b.setBits (o.p0 + (ptr0 - 1) * o.psize) (BitVec.ofNat 64 (ptr0 * 2 ^ logSampling0 + rank)) o.psize
          setPtr0sLoop o endZeros rank fuel (ptr0 + 1) b
      else .ok b

/-- `set_ptr0s(begin, end, rank_end)`, include/ef/compact_ef.hpp:29-42 -/
def setPtr0s (o : Off) (begin end' rank : Nat) (b : BVB) : M BVB :=
  setPtr0sLoop o (end' - rank) rank (end' + 1) (ceilDiv (begin - rank) (2 ^ logSampling0)) b

/-- `if (i and (i & sample1_mask) == 0) ...`, include/ef/compact_ef.hpp:63-69 -/
def setPtr1 (o : Off) (i high : Nat) (b : BVB) : M BVB :=
  if i ≠ 0 ∧ i % 2 ^ logSampling1 = 0 then
    b.setBits (o.p1 + (i / 2 ^ logSampling1 - 1) * o.psize) (BitVec.ofNat 64 high) o.psize
  else .ok b

/-- the loop of `build`, include/ef/compact_ef.hpp:44-78, reading the `n` values from the list (values are 64-bit numbers) -/
def buildLoop (o : Off) : List Nat → Nat → Nat → Nat → BVB → M BVB
  | [], _, _, lastHigh, b => setPtr0s o (lastHigh + 1) o.hlen o.n b
  | v :: vs, i, last, lastHigh, b =>
      if i ≠ 0 ∧ v < last then .error .thrown
      else do
        let high := v / 2 ^ o.l + i + 1
        let b ← b.set (o.hb + high) true
        let b ← b.setBits (o.lo + i * o.l) (BitVec.ofNat 64 v &&& maskW o.l) o.l
        let b ← setPtr1 o i high b
        let b ← setPtr0s o (lastHigh + 1) high i b
        buildLoop o vs (i + 1) v high b

/-- `compact_ef::build(bvb, begin, universe, n)`, include/ef/compact_ef.hpp:15-79, with `n` the number of values. With no
values and a positive universe `ef_offsets` divides by zero. -/
def build (b : BVB) (u : Nat) (vs : List Nat) : M BVB :=
  if vs.length = 0 ∧ 0 < u then .error .unreachable
  else
    let o := offsets b.size u vs.length
    buildLoop o vs 0 0 0 (b.zeroExtend (o.last - b.size))

end CEF

/-- `compact_ef::iterator`, data members: include/ef/compact_ef.hpp:356-361, without the pointer to the bit vector, which is
an argument of its functions -/
structure CEI where
  off : CEF.Off
  pos : Nat
  value : Nat
  he : UI
  deriving DecidableEq

namespace CEI
open CEF

/-- `read_low`, include/ef/compact_ef.hpp:299-303, and line 327 -/
def readLow (v : BV) (o : Off) (pos : Nat) : M W := do
  let w ← v.getWord56 (o.lo + pos * o.l)
  .ok (w &&& maskW o.l)

/-- `((position of the one - higher_bits_offset - m_position - 1) << lower_bits) | low`: include/ef/compact_ef.hpp:126-129,
307-308, 326-330 -/
def compose (o : Off) (onePos pos : Nat) (low : W) : Nat :=
  ((BitVec.ofNat 64 (onePos - o.hb - pos - 1) <<< o.l) ||| low).toNat

/-- `read_next` at `m_position = pos`, include/ef/compact_ef.hpp:305-309, and `next_reader::operator()`, 325-331 -/
def readNext (v : BV) (o : Off) (pos : Nat) (he : UI) : M (Nat × UI) := do
  let he ← he.next v
  let low ← readLow v o pos
  .ok (compose o he.position pos low, he)

/-- `pointer(offset, i)`, include/ef/compact_ef.hpp:339-346 -/
def pointer (v : BV) (o : Off) (offset i : Nat) : M Nat :=
  if i = 0 then .ok 0
  else do
    let w ← v.getWord56 (offset + (i - 1) * o.psize)
    .ok (w &&& maskW o.psize).toNat

/-- the choice of the enumerator and of `to_skip` in `slow_access`, include/ef/compact_ef.hpp:235-246 -/
def seekOne (v : BV) (it : CEI) (position : Nat) : M (UI × Nat) :=
  if position > it.pos ∧ (position - it.pos) / 2 ^ logSampling1 = 0 then .ok (it.he, position - it.pos - 1)
  else do
    let ptr := position / 2 ^ logSampling1
    let highPos ← pointer v it.off it.off.p1 ptr
    let he ← UI.mk' v (it.off.hb + highPos)
    .ok (he, position - ptr * 2 ^ logSampling1)

/-- `slow_access(position)`, include/ef/compact_ef.hpp:228-252 -/
def slowAccess (v : BV) (it : CEI) (position : Nat) : M CEI :=
  if position = it.off.n then .ok { it with pos := position, value := it.off.univ }
  else do
    let (he, k) ← seekOne v it position
    let he ← he.skip v k
    let (val, he) ← readNext v it.off position he
    .ok ⟨it.off, position, val, he⟩

/-- `for (i = 0; i < skip; ++i) he.next();`, include/ef/compact_ef.hpp:123-125 -/
def nextN (v : BV) : Nat → UI → M UI
  | 0, he => .ok he
  | k + 1, he => do
      let he ← he.next v
      nextN v k he

/-- `access(position)`, include/ef/compact_ef.hpp:113-135; the value returned is the `value` of the new state -/
def access (v : BV) (it : CEI) (position : Nat) : M CEI :=
  if position > it.pos ∧ position - it.pos ≤ linearScanThreshold then
    if position = it.off.n then .ok { it with pos := position, value := it.off.univ }
    else do
      let he ← nextN v (position - it.pos) it.he
      let low ← readLow v it.off position
      .ok ⟨it.off, position, compose it.off he.position position low, he⟩
  else slowAccess v it position

/-- `iterator(bv, offset, universe, n)`, include/ef/compact_ef.hpp:86-93. `m_value` and `m_high_enumerator` are set by
`access(0)`, which does not read them. -/
def mk' (v : BV) (offset u n : Nat) : M CEI :=
  if n = 0 ∧ 0 < u then .error .unreachable
  else access v ⟨offsets offset u n, 0, 0, ⟨0, 0⟩⟩ 0

/-- `next()`, include/ef/compact_ef.hpp:179-188, and `operator++`, 99-107 -/
def next (v : BV) (it : CEI) : M CEI :=
  if it.pos + 1 < it.off.n then do
    let (val, he) ← readNext v it.off (it.pos + 1) it.he
    .ok ⟨it.off, it.pos + 1, val, he⟩
  else .ok { it with pos := it.pos + 1, value := it.off.univ }

/-- `has_next()`, include/ef/compact_ef.hpp:95-97 -/
def hasNext (it : CEI) : Bool := it.pos < it.off.n

/-- the loop of `next_geq_by_scan`, include/ef/compact_ef.hpp:137-148 -/
def scanLoop (v : BV) (x : Nat) : Nat → CEI → M CEI
  | 0, _ => .error .diverge
  | fuel + 1, it =>
      if it.pos ≠ it.off.n then
        if it.value ≥ x then .ok it
        else do
          let it ← it.next v
          scanLoop v x fuel it
      else .ok { it with value := it.off.univ }

/-- `next_geq_by_scan(lower_bound)`, include/ef/compact_ef.hpp:137-148 -/
def nextGeqByScan (v : BV) (it : CEI) (x : Nat) : M CEI := scanLoop v x (it.off.n + 1) it

/-- the loop of the fast path of `next_geq`, include/ef/compact_ef.hpp:159-169 -/
def fastLoop (v : BV) (o : Off) (x : Nat) : Nat → Nat → UI → M CEI
  | 0, _, _ => .error .diverge
  | fuel + 1, pos, he =>
      if pos + 1 < o.n then do
        let (val, he) ← readNext v o (pos + 1) he
        if val < x then fastLoop v o x fuel (pos + 1) he
        else .ok ⟨o, pos + 1, val, he⟩
      else .ok ⟨o, pos + 1, o.univ, he⟩

/-- the loop of `slow_next_geq`, include/ef/compact_ef.hpp:284-296 -/
def slowLoop (v : BV) (o : Off) (x : Nat) : Nat → Nat → UI → M CEI
  | 0, _, _ => .error .diverge
  | fuel + 1, pos, he =>
      if pos = o.n then .ok ⟨o, pos, o.univ, he⟩
      else do
        let (val, he) ← readNext v o pos he
        if val ≥ x then .ok ⟨o, pos, val, he⟩
        else slowLoop v o x fuel (pos + 1) he

/-- the choice of the enumerator and of `to_skip` in `slow_next_geq`, include/ef/compact_ef.hpp:259-278 -/
def seekZero (v : BV) (it : CEI) (x : Nat) : M (UI × Nat) :=
  let hx := x / 2 ^ it.off.l
  let diff := hx - it.value / 2 ^ it.off.l
  if x > it.value ∧ diff / 2 ^ logSampling0 = 0 then .ok (it.he, diff)
  else do
    let ptr := hx / 2 ^ logSampling0
    let highPos ← pointer v it.off it.off.p0 ptr
    let he ← UI.mk' v (it.off.hb + highPos)
    .ok (he, hx - ptr * 2 ^ logSampling0)

/-- `slow_next_geq(lower_bound)`, include/ef/compact_ef.hpp:254-297 -/
def slowNextGeq (v : BV) (it : CEI) (x : Nat) : M CEI :=
  if x ≥ it.off.univ then it.access v it.off.n
  else do
    let (he, k) ← seekZero v it x
    let he ← he.skip0 v k
    slowLoop v it.off x (it.off.n + 1) (he.position - it.off.hb - x / 2 ^ it.off.l) he

/-- `next_geq(lower_bound)`, include/ef/compact_ef.hpp:150-173 -/
def nextGeq (v : BV) (it : CEI) (x : Nat) : M CEI :=
  if x > it.value ∧ x / 2 ^ it.off.l - it.value / 2 ^ it.off.l ≤ linearScanThreshold then
    fastLoop v it.off x (it.off.n + 1) it.pos it.he
  else slowNextGeq v it x

/-- `prev_value()`, include/ef/compact_ef.hpp:190-205 -/
def prevHigh (v : BV) (it : CEI) : M Nat :=
  if it.pos < it.off.n then v.predecessor1 (it.he.position - 1) else v.predecessor1 (it.off.lo - 1)

@[inherit_doc prevHigh]
def prevValue (v : BV) (it : CEI) : M Nat :=
  if it.pos = 0 then .ok 0
  else do
    let h ← prevHigh v it
    let low ← readLow v it.off (it.pos - 1)
    .ok (compose it.off h (it.pos - 1) low)

/-- the loop of `intersects`, include/ef/compact_ef.hpp:219-223, `k` more steps -/
def intersectsLoop (v : BV) (r : Range) : Nat → CEI → M (Bool × CEI)
  | 0, it => .ok (false, it)
  | k + 1, it => do
      let it ← it.next v
      if it.value > r.e then .ok (false, it)
      else if r.b ≤ it.value ∧ it.value ≤ r.e then .ok (true, it)
      else intersectsLoop v r k it

/-- `intersects(r)`, include/ef/compact_ef.hpp:215-225, with `range::contains`, include/util_types.hpp:56-59. The counter of the
loop starts from 1 and is compared with the size by `!=`: with an empty list it does not end. -/
def intersects (v : BV) (it : CEI) (r : Range) : M (Bool × CEI) := do
  let it ← it.access v 0
  if it.value > r.e then .ok (false, it)
  else if r.b ≤ it.value ∧ it.value ≤ r.e then .ok (true, it)
  else if it.off.n = 0 then .error .diverge
  else intersectsLoop v r (it.off.n - 1) it

end CEI

end AC
