import Verif.Model.FrontCoding
import Verif.Model.Compare
/-!
# The dictionary of terms, include/fc_dictionary.hpp
-/
namespace AC.FcDict
open FC

/-- Builder, include/fc_dictionary.hpp:17-89 -/
def build (terms : List Str) : M FC := FC.build Elem.byte FC.lcp terms

/-- `static uint8_t decoded[2 * MAX_NUM_CHARS_PER_QUERY]`, include/fc_dictionary.hpp:303: its size.
(In C++ each of `locate`, `left_locate` and `right_locate` has its own array; the model threads a single one, of arbitrary
initial content, through the calls. The theorems hold for every initial content.) -/
def bufSize : Nat := 2 * MAX_CHARS

/-- bucket-level `locate`, include/fc_dictionary.hpp:344-354 -/
def locateIn (d : FC) (t h : Str) (b : Nat) (buf : Str) : M (Nat × Str) := do
  let (r, buf) ← scan Elem.byte d
    (fun i s =>
      let cmp := byteCompare t s
      if cmp = 0 then some i else if cmp < 0 then some INVALID_TERM else none) h b buf
  .ok (r.getD INVALID_TERM, buf)

/-- `left_locate`, include/fc_dictionary.hpp:356-366 -/
def leftLocate (d : FC) (p h : Str) (b : Nat) (buf : Str) : M (Nat × Str) := do
  let (r, buf) ← scan Elem.byte d
    (fun i s => if byteCompareN s p p.length = 0 then some i else none) h b buf
  .ok (r.getD (d.bucketSize b + 1), buf)

/-- `right_locate`, include/fc_dictionary.hpp:368-378 -/
def rightLocate (d : FC) (p h : Str) (b : Nat) (buf : Str) : M (Nat × Str) := do
  let (r, buf) ← scan Elem.byte d
    (fun i s => if byteCompareN s p p.length > 0 then some (i - 1) else none) h b buf
  .ok (r.getD (d.bucketSize b), buf)

/-- Loops 1 and 3 of `locate_buckets`, include/fc_dictionary.hpp:248-257 (`goLeft cmp = (cmp >= 0)`) and :284-293
(`goLeft cmp = (cmp > 0)`): binary search; returns `lo` (`hi` is then `lo - 1`) -/
def bucketsLoop (d : FC) (p : Str) (goLeft : Int → Bool) : Nat → Int → Int → M Int
  | 0, _, _ => .error .diverge
  | fuel + 1, lo, hi =>
      if lo ≤ hi then do
        let mi := (lo + hi) / 2
        let h ← d.header mi.toNat
        let cmp := byteCompareN h p p.length
        if goLeft cmp then bucketsLoop d p goLeft fuel lo (mi - 1)
        else bucketsLoop d p goLeft fuel (mi + 1) hi
      else .ok lo

/-- The end of step 1 of `locate_buckets`, include/fc_dictionary.hpp:265-269: the left bucket, `lo` being the first
bucket whose header is not less than `p` -/
def leftBucket (d : FC) (p : Str) (lo : Nat) : M Nat :=
  if lo = 0 then .ok 0 else do
    let h ← d.header lo
    .ok (if byteCompare h p = 0 then lo else lo - 1)

/-- `locate_buckets`, include/fc_dictionary.hpp:240-300 -/
def locateBuckets (d : FC) (p : Str) : M (Nat × Nat) := do
  let nb := d.nBuckets
  -- 1. locate left bucket
  let lo ← bucketsLoop d p (fun cmp => decide (cmp ≥ 0)) (nb + 1) 0 ((nb : Int) - 1)
  let lo := lo.toNat
  if lo = nb then .ok (lo - 1, lo - 1)
  else do
    let left ← leftBucket d p lo
    -- 2. everything in one bucket
    if left = nb - 1 then .ok (left, left)
    else do
      let h ← d.header (left + 1)
      if byteCompareN h p p.length > 0 then .ok (left, left)
      else do
        -- 3. locate the right bucket
        let lo ← bucketsLoop d p (fun cmp => decide (cmp > 0)) (nb + 1) left ((nb : Int) - 1)
        .ok (left, (lo - 1).toNat)

/-- `if (byte_range_compare(h_begin, p) != 0) p_begin += left_locate(...)`, include/fc_dictionary.hpp:126-128 -/
def beginOffset (d : FC) (p hBegin : Str) (bb : Nat) (buf : Str) : M (Nat × Str) :=
  if byteCompare hBegin p ≠ 0 then leftLocate d p hBegin bb buf else .ok (0, buf)

/-- `locate_prefix(p)`, include/fc_dictionary.hpp:119-132; `size() - 1` is a 64-bit number -/
def locatePrefix (d : FC) (p : Str) (buf : Str) : M (Range × Str) := do
  if p.length = 0 then .ok (⟨0, if d.size = 0 then 2 ^ 64 - 1 else d.size - 1⟩, buf)
  else do
    let (bb, be) ← locateBuckets d p
    let hBegin ← d.header bb
    let hEnd ← d.header be
    let (off, buf) ← beginOffset d p hBegin bb buf
    let pBegin := bb * 17 + off
    let (off, buf) ← rightLocate d p hEnd be buf
    let pEnd := be * 17 + off
    if pEnd < pBegin then .ok (Range.invalid, buf) else .ok (⟨pBegin, pEnd⟩, buf)

/-- `locate(t)`, include/fc_dictionary.hpp:137-148. Ids are 1-based. -/
def locate (d : FC) (t : Str) (buf : Str) : M (Nat × Str) := do
  let (isHeader, h, b) ← locateBucket byteCompare d t
  let base := b * 17 + 1
  if isHeader then .ok (base, buf)
  else do
    let (off, buf) ← locateIn d t h b buf
    if off = INVALID_TERM then .ok (INVALID_TERM, buf) else .ok (base + off, buf)

/-- `extract(id, out)`, include/fc_dictionary.hpp:151-157: `out` points at offset `base` of the array `out`.
Returns the array and the length of the string. With the id 0 (excluded by the assert of :152) `id - 1` is beyond the
strings. -/
def extract (d : FC) (id : Nat) (out : Str) (base : Nat) : M (Str × Nat) :=
  if id = 0 then .error .oob
  else extractAt Elem.byte d ((id - 1) % 17) ((id - 1) / 17) out base

end AC.FcDict
