import Verif.Model.DArray
import Verif.Model.Constants
/-!
# Elias-Fano sequences, include/ef/ef_sequence.hpp, and searching in sequences, include/util.hpp
-/
namespace AC

/-- `global::linear_scan_threshold`, include/util.hpp:33 -/
def linearScanThreshold : Nat := 8

/-- What `util::find` and `util::next_geq` use of a sequence: `access`, and the iterator returned by `at`, dereferenced
and incremented -/
structure Seq where
  access : Nat → M Nat
  It : Type
  at' : Nat → M It
  deref : It → M (Nat × It)
  inc : It → M It

namespace Seq

/-- the linear scan of `util::find`, include/util.hpp:43-47 (`n` positions from `pos`) -/
def scanEq (S : Seq) (id : Nat) : Nat → Nat → S.It → M (Option Nat)
  | 0, _, _ => .ok none
  | n + 1, pos, it => do
      let (v, it) ← S.deref it
      if v = id then .ok (some pos)
      else do
        let it ← S.inc it
        S.scanEq id n (pos + 1) it

/-- the linear scan of `util::next_geq`, include/util.hpp:69-73 -/
def scanGe (S : Seq) (x : Nat) : Nat → Nat → S.It → M (Option Nat)
  | 0, _, _ => .ok none
  | n + 1, pos, it => do
      let (v, it) ← S.deref it
      if v ≥ x then .ok (some pos)
      else do
        let it ← S.inc it
        S.scanGe x n (pos + 1) it

/-- `if (hi - lo <= linear_scan_threshold) ...` of `util::find`, include/util.hpp:41-48 -/
def findScan (S : Seq) (id lo hi : Nat) : M (Option Nat) :=
  if hi - lo ≤ linearScanThreshold then do
    let it ← S.at' lo
    S.scanEq id (hi - lo) lo it
  else .ok none

/-- `util::find(sequence, id, lo, hi)`, include/util.hpp:38-61; `fuel` bounds the iterations -/
def find (S : Seq) (id : Nat) : Nat → Nat → Nat → M Nat
  | 0, _, _ => .error .diverge
  | fuel + 1, lo, hi =>
      if lo ≤ hi then do
        match ← S.findScan id lo hi with
        | some p => .ok p
        | none => do
            let pos := lo + (hi - lo) / 2
            let val ← S.access pos
            if val = id then .ok pos
            else if val > id then
              if pos = 0 then .ok NOT_FOUND else S.find id fuel lo (pos - 1)
            else S.find id fuel (pos + 1) hi
      else .ok NOT_FOUND

/-- `util::next_geq(sequence, lower_bound, lo, hi)`, include/util.hpp:63-93; `fuel` bounds the iterations -/
def nextGeq (S : Seq) (x : Nat) : Nat → Nat → Nat → M Nat
  | 0, _, _ => .error .diverge
  | fuel + 1, lo, hi =>
      if lo ≤ hi then
        if hi - lo ≤ linearScanThreshold then do
          let it ← S.at' lo
          let r ← S.scanGe x (hi + 1 - lo) lo it
          .ok (r.getD NOT_FOUND)
        else do
          let pos := (lo + hi) / 2
          let val ← S.access pos
          if val > x then do
            let hi := if pos ≠ 0 then pos - 1 else 0
            let v ← S.access hi
            if x > v then .ok pos else S.nextGeq x fuel lo hi
          else if val < x then S.nextGeq x fuel (pos + 1) hi
          else .ok pos
      else .ok NOT_FOUND

/-- `find(r, id)` of a sequence whose runs are stored as increments over the last element of the previous one:
include/ef/ef_sequence.hpp:145-150 with `previous_range_upperbound`, :246-249 -/
def prevUpper (S : Seq) (r : Range) : M Nat :=
  if r.b ≠ 0 then S.access (r.b - 1) else .ok 0

/-- `r.end - 1`, include/ef/ef_sequence.hpp:149, :158. For an empty range that ends at 0 it is `2^64 - 1`, and the search
accesses the position in the middle, which does not exist. -/
def lastIn (r : Range) : M Nat := if r.e = 0 then .error .oob else .ok (r.e - 1)

/-- `find(r, id)`, include/ef/ef_sequence.hpp:145-150; the sum is of 64-bit numbers -/
def findIn (S : Seq) (r : Range) (id : Nat) : M Nat := do
  let u ← S.prevUpper r
  let last ← lastIn r
  S.find ((id + u) % 2 ^ 64) (r.e + 1) r.b last

/-- the end of `find(r, lex)`, include/ef/ef_sequence.hpp:162-165 -/
def findRangeEnd (S : Seq) (r : Range) (idEnd begin : Nat) : M Range := do
  let e ← S.nextGeq idEnd (r.e + 1) begin (r.e - 1)
  if e = NOT_FOUND then .ok ⟨begin, r.e⟩
  else do
    let v ← S.access e
    .ok ⟨begin, if v ≠ idEnd then e else e + 1⟩

/-- `find(r, lex)`, include/ef/ef_sequence.hpp:152-166 -/
def findRange (S : Seq) (r lex : Range) : M Range := do
  let u ← S.prevUpper r
  let idBegin := (lex.b + u) % 2 ^ 64
  let idEnd := (lex.e + u) % 2 ^ 64
  let last ← lastIn r
  let begin ← S.nextGeq idBegin (r.e + 1) r.b last
  if begin = NOT_FOUND then .ok ⟨r.e, r.e⟩
  else do
    let v ← S.access begin
    if v > idEnd then .ok ⟨r.e, r.e⟩
    else if lex.b = lex.e then .ok ⟨begin, begin + 1⟩
    else S.findRangeEnd r idEnd begin

end Seq

/-- `uint_vec<UintType>`, include/uint_vec.hpp:9-137, as a sequence to be searched: its data, `access` (:71-74), and the
iterator (:46-65), which is a position. Elements are 64-bit (`uint_vec<uint64_t>`); sums of 32-bit elements would wrap
earlier. -/
def UVec.seq (xs : List Nat) : Seq := ⟨rd xs, Nat, .ok, fun i => do let v ← rd xs i; .ok (v, i), fun i => .ok (i + 1)⟩

/-- `uint_vec::find(r, lex)`, include/uint_vec.hpp:83-105: unlike the version of `ef_sequence`, what `next_geq` found is not
compared with the end of `lex` -/
def UVec.findRange (xs : List Nat) (r lex : Range) : M Range := do
  let S := UVec.seq xs
  let u ← S.prevUpper r
  let last ← Seq.lastIn r
  let begin ← S.nextGeq ((lex.b + u) % 2 ^ 64) (r.e + 1) r.b last
  if begin = NOT_FOUND then .ok ⟨r.e, r.e⟩
  else if lex.b = lex.e then .ok ⟨begin, begin + 1⟩
  else S.findRangeEnd r ((lex.e + u) % 2 ^ 64) begin

/-- `ef_sequence`, data members: include/ef/ef_sequence.hpp:215-219 -/
structure EF where
  l : Nat
  high : BV
  d1 : DA
  low : BV
  size : Nat
  deriving DecidableEq

/-- `ef_sequence::iterator`, data members: include/ef/ef_sequence.hpp:122-132, without the constant copies `m_ef`, `m_l`,
`m_low_mask` -/
structure EFI where
  val : W
  pos : Nat
  high : Nat
  it : UI
  lowBuf : W
  chunks : Nat
  avail : Nat
  deriving DecidableEq

namespace EF

/-- `m_l`, include/ef/ef_sequence.hpp:223 -/
def lowWidth (n u : Nat) : Nat := if n ≠ 0 ∧ u / n ≠ 0 then msbNat (u / n) else 0

/-- the loop of `compress`, include/ef/ef_sequence.hpp:231-239 -/
def compressLoop (l : Nat) : Nat → W → List W → BVB → BVB → M (BVB × BVB)
  | _, _, [], lowB, highB => .ok (lowB, highB)
  | i, last, v :: vs, lowB, highB =>
      if i ≠ 0 ∧ v.toNat < last.toNat then .error .thrown
      else do
        let lowB := if l ≠ 0 then lowB.appendBits (v &&& maskW l) l else lowB
        let highB ← highB.set ((v >>> l).toNat + i) true
        compressLoop l (i + 1) v vs lowB highB

/-- `compress(begin, n, u)`, include/ef/ef_sequence.hpp:221-244. The words of memory after the buffers are never read
(`get_bits` and `get_word64` stay inside), they are taken to be zero. -/
def compress (vs : List W) (u : W) : M EF := do
  let l := lowWidth vs.length u.toNat
  let (lowB, highB) ← compressLoop l 0 0 vs BVB.empty (BVB.mk' (vs.length + (u >>> l).toNat + 1) false)
  let high := BV.build highB 0
  let d1 ← DA.build false high
  .ok ⟨l, high, d1, BV.build lowB 0, vs.length⟩

/-- `build(from)`, include/ef/ef_sequence.hpp:15-18; `back()` of an empty vector is an invalid read -/
def build (vs : List W) : M EF :=
  match vs.getLast? with
  | none => .error .oob
  | some u => compress vs u

/-- the loop `do ... while (!run)`, include/ef/ef_sequence.hpp:39-44: the next non-empty run; returns its end and the rest of
the pointers -/
def nextRun (endP : Nat) : List Nat → M (Nat × Nat × List Nat)
  | [] => .error .oob
  | p :: ps => if p - endP = 0 then nextRun p ps else .ok (p, p - endP, ps)

/-- the loop of `build` with pointers, include/ef/ef_sequence.hpp:36-50; `ps` are the pointers not read yet -/
def sumLoop : List Nat → Nat → Nat → Nat → W → List W → List W → M (List W)
  | _, _, _, _, _, values, [] => .ok values
  | ps, endP, run, within, prev, values, v :: vs =>
      if within = run then do
        let (endP, run, ps) ← nextRun endP ps
        let prev := values.getLastD 0
        sumLoop ps endP run 1 prev (values ++ [v + prev]) vs
      else
        sumLoop ps endP run (within + 1) prev (values ++ [v + prev]) vs

/-- `build(begin, n, pointers)`, include/ef/ef_sequence.hpp:25-54 -/
def buildRuns (vs : List W) (pointers : List Nat) : M EF := do
  let p0 ← rd pointers 0
  let p1 ← rd pointers 1
  let values ← sumLoop (pointers.drop 2) p1 (p1 - p0) 0 0 [] vs
  build values

/-- `access(i)`, include/ef/ef_sequence.hpp:135-139 -/
def access (e : EF) (i : Nat) : M Nat := do
  let p ← DA.select false e.d1 e.high i
  let lo ← e.low.getBits (i * e.l) e.l
  .ok ((BitVec.ofNat 64 (p - i) <<< e.l) ||| lo).toNat

/-- `operator[](i)`, include/ef/ef_sequence.hpp:168-170 -/
def pair (e : EF) (i : Nat) : M Range := do
  let a ← e.access i
  let b ← e.access (i + 1)
  .ok ⟨a, b⟩

/-- `universe()`, include/ef/ef_sequence.hpp:176-178 -/
def univ (e : EF) : M Nat := e.access (e.size - 1)

/-- the low bits read by the constructor of the iterator, include/ef/ef_sequence.hpp:68-75: buffer, chunks in a word, chunks
available -/
def lowInit (e : EF) (pos : Nat) : M (W × Nat × Nat) :=
  if e.l ≠ 0 then do
    let w ← e.low.getWord64 (pos * e.l)
    .ok (w, 64 / e.l, 64 / e.l - 1)
  else .ok (0, 0, e.d1.positions)

/-- `at(pos)`: `iterator(ef, pos)`, include/ef/ef_sequence.hpp:59-83 -/
def at' (e : EF) (pos : Nat) : M EFI := do
  let u ← e.univ
  let (buf, chunks, avail) ← e.lowInit pos
  if e.d1.positions = 0 then .ok ⟨BitVec.ofNat 64 u, pos, 0, ⟨0, 0⟩, buf, chunks, avail⟩
  else do
    let p ← DA.select false e.d1 e.high pos
    let it ← UI.mk' e.high p
    let it ← UI.next e.high it
    .ok ⟨BitVec.ofNat 64 u, pos, it.position, it, buf, chunks, avail⟩

/-- the value under the iterator, include/ef/ef_sequence.hpp:93-94, 105-106 -/
def value (e : EF) (i : EFI) : W :=
  (BitVec.ofNat 64 (i.high - i.pos) <<< e.l) ||| (i.lowBuf &&& maskW e.l)

/-- `operator*`, include/ef/ef_sequence.hpp:101-108 -/
def deref (e : EF) (i : EFI) : M (Nat × EFI) :=
  if i.pos = e.size then .ok (i.val.toNat, i)
  else .ok ((e.value i).toNat, { i with val := e.value i })

/-- `if (!m_chunks_avail--) ...`, include/ef/ef_sequence.hpp:87-90, 115-118, on 64-bit numbers -/
def refill (e : EF) (i : EFI) : M EFI :=
  if i.avail = 0 then do
    let w ← e.low.getWord64 (i.pos * e.l)
    .ok { i with lowBuf := w, avail := (i.chunks + 2 ^ 64 - 1) % 2 ^ 64 }
  else .ok { i with avail := i.avail - 1 }

/-- `operator++`, include/ef/ef_sequence.hpp:110-119 -/
def inc (e : EF) (i : EFI) : M EFI :=
  if i.pos + 1 = e.size then .ok { i with pos := i.pos + 1 }
  else do
    let it ← UI.next e.high i.it
    e.refill { i with pos := i.pos + 1, it := it, high := it.position, lowBuf := i.lowBuf >>> e.l }

/-- `next()`, include/ef/ef_sequence.hpp:85-99 -/
def next (e : EF) (i : EFI) : M (Nat × EFI) :=
  if i.pos = e.size then .ok (i.val.toNat, i)
  else do
    let i ← e.refill i
    let v := e.value i
    let it ← UI.next e.high i.it
    .ok (v.toNat, { i with val := v, pos := i.pos + 1, lowBuf := i.lowBuf >>> e.l, it := it, high := it.position })

/-- an `ef_sequence` as a sequence to be searched -/
def seq (e : EF) : Seq := ⟨e.access, EFI, e.at', e.deref, e.inc⟩

/-- enumeration of `n` elements: `*it; ++it;` repeated -/
def scan (e : EF) : Nat → EFI → M (List Nat)
  | 0, _ => .ok []
  | n + 1, it => do
      let (v, it) ← e.deref it
      let it ← e.inc it
      let vs ← scan e n it
      .ok (v :: vs)

/-- enumeration of `n` elements with `next()` -/
def walk (e : EF) : Nat → EFI → M (List Nat)
  | 0, _ => .ok []
  | n + 1, it => do
      let (v, it) ← e.next it
      let vs ← walk e n it
      .ok (v :: vs)

end EF
end AC
