import Verif.Model.FcDictionary
import Verif.Model.IntDictionary
/-!
# The dictionaries, built with assertions

The functions of Model/FrontCoding.lean, Model/FcDictionary.lean and Model/IntDictionary.lean once more, with the `assert`s that a build with
`-DCMAKE_BUILD_TYPE=Debug` keeps (CMakeLists.txt:4-12, README.md:77): those of include/fc_dictionary.hpp, include/integer_fc_dictionary.hpp,
include/uint_vec.hpp (the pointers) and include/util_types.hpp (the comparisons). A failed assertion is `Fault.aborted`.
-/
namespace AC

/-- `uint_vec::access(i)`, include/uint_vec.hpp:71-74 (the assertion: 72) -/
def accessD (v : List Nat) (i : Nat) : M Nat := do
  check (i < v.length)
  rd v i

/-- `byte_range_compare(l, r, n)`, include/util_types.hpp:160-168 (the assertion: 161) -/
def byteCompareND (l r : Str) (n : Nat) : M Int := do
  check (0 < n ∧ n ≤ r.length)
  .ok (byteCompareN l r n)

/-- `uint32_range_compare(l, r, n)`, include/util_types.hpp:182-196 (the assertion: 183) -/
def idsCompareND (l r : Ids) (n : Nat) : M Int := do
  check (0 < n ∧ n ≤ r.length)
  .ok (idsCompareN l r n)

namespace FC

/-- `write_header` and `write` of the builders of terms, include/fc_dictionary.hpp:98-112 (the assertions: 99-100, 105-106), and of completions,
include/integer_fc_dictionary.hpp:104-123 (105-106, 113-114): the string is not empty and not longer than the constant. `extra` is the terminator at the end of a
completion, which the model leaves out (the assertions of :107 and :115 say that it is there). -/
def checkSize (E : Elem) (extra : Nat) (s : List Nat) : M Unit := check (0 < s.length + extra ∧ s.length + extra ≤ E.cap)

/-- The inner loop of the builder with the assertions of `write`, include/fc_dictionary.hpp:48-58 and 104-112 (109: `size` is the length as an 8-bit
number), include/integer_fc_dictionary.hpp:48-59 and 112-123 (118) -/
def buildBucketD (E : Elem) (extra : Nat) (lcpOf : List Nat → List Nat → Nat) :
    Nat → List Nat → List (List Nat) → List Nat → M (List (List Nat) × List Nat)
  | 0, _, input, buckets => .ok (input, buckets)
  | _ + 1, _, [], _ => .error .oob
  | n + 1, prev, curr :: input, buckets => do
      checkSize E extra curr
      check (lcpOf curr prev ≤ curr.length % 256)
      buildBucketD E extra lcpOf n curr input (write E buckets curr (lcpOf curr prev))

/-- The outer loop of the builder with the assertions of `write_header`, include/fc_dictionary.hpp:41-60, include/integer_fc_dictionary.hpp:39-61 -/
def buildLoopD (E : Elem) (extra : Nat) (lcpOf : List Nat → List Nat → Nat) (tl : Nat) : Nat → List (List Nat) → FC → M FC
  | 0, _, d => .ok d
  | _ + 1, [], _ => .error .oob
  | nb + 1, header :: input, d => do
      checkSize E extra header
      let headers := d.headers ++ header
      let size := if nb ≠ 0 then 16 else tl
      let (input, buckets) ← buildBucketD E extra lcpOf size header input d.buckets
      buildLoopD E extra lcpOf tl nb input
        { d with headers := headers, buckets := buckets,
                 ptrHeaders := d.ptrHeaders ++ [headers.length % E.ptr],
                 ptrBuckets := d.ptrBuckets ++ [buckets.length % E.ptr] }

/-- The builders, include/fc_dictionary.hpp:17-89, include/integer_fc_dictionary.hpp:17-90 -/
def buildD (E : Elem) (extra : Nat) (lcpOf : List Nat → List Nat → Nat) (strings : List (List Nat)) : M FC := do
  let n := strings.length
  let nb := (n + 16) / 17
  let d ← buildLoopD E extra lcpOf (tail n) nb strings
    { size := n, ptrHeaders := [0], ptrBuckets := [0], headers := [], buckets := [] }
  .ok { d with buckets := d.buckets ++ List.replicate (E.cap * E.width) 0 }

/-- `header(i)`, include/fc_dictionary.hpp:174-179, include/integer_fc_dictionary.hpp:214-219 (the assertions: 175, 215); `operator[]` of the
pointers is two calls of `access`, include/uint_vec.hpp:107-109 -/
def headerD (d : FC) (i : Nat) : M (List Nat) := do
  check (i < d.nBuckets)
  let b ← accessD d.ptrHeaders i
  let e ← accessD d.ptrHeaders (i + 1)
  if b ≤ e ∧ e ≤ d.headers.length then .ok ((d.headers.drop b).take (e - b)) else .error .oob

/-- `extract(id, bucket_id, out)`, include/fc_dictionary.hpp:329-342, include/integer_fc_dictionary.hpp:323-336 (the assertions: 330, 327) -/
def extractAtD (E : Elem) (d : FC) (id b : Nat) (out : List Nat) (base : Nat) : M (List Nat × Nat) := do
  check (id ≤ d.bucketSize b)
  let h ← d.headerD b
  let out ← memcpy out base h 0 h.length
  let cur ← accessD d.ptrBuckets b
  extractLoop E d id cur out base (h.length % 256)

/-- The loop of `locate_bucket`, include/fc_dictionary.hpp:216-228, include/integer_fc_dictionary.hpp:257-269 -/
def locateBucketLoopD (cmpFn : List Nat → List Nat → Int) (d : FC) (t : List Nat) : Nat → BS → M (Bool × BS)
  | 0, _ => .error .diverge
  | fuel + 1, s =>
      if s.lo ≤ s.hi then do
        let mi := (s.lo + s.hi) / 2
        let h ← d.headerD mi.toNat
        let cmp := cmpFn h t
        if cmp > 0 then
          locateBucketLoopD cmpFn d t fuel { s with hi := mi - 1, mi := mi, cmp := cmp, h := h }
        else if cmp < 0 then
          locateBucketLoopD cmpFn d t fuel { s with lo := mi + 1, mi := mi, cmp := cmp, h := h }
        else .ok (true, { s with mi := mi, cmp := cmp, h := h })
      else .ok (false, s)

/-- `locate_bucket(t, h, bucket_id)`, include/fc_dictionary.hpp:213-238, include/integer_fc_dictionary.hpp:253-279 -/
def locateBucketD (cmpFn : List Nat → List Nat → Int) (d : FC) (t : List Nat) : M (Bool × List Nat × Nat) := do
  let (found, s) ← locateBucketLoopD cmpFn d t (d.nBuckets + 1)
    { lo := 0, hi := (d.nBuckets : Int) - 1, mi := 0, cmp := 0, h := [] }
  if found then .ok (true, s.h, s.mi.toNat)
  else if s.cmp < 0 then .ok (false, s.h, s.mi.toNat)
  else do
    let b := if s.hi = -1 then 0 else s.hi.toNat
    let h ← d.headerD b
    .ok (false, h, b)

/-- The scan of a bucket; what is done with a decoded string may fail an assertion. See `FC.scanLoop`. -/
def scanLoopD {ρ : Type} (E : Elem) (d : FC) (stop : Nat → List Nat → M (Option ρ)) :
    Nat → Nat → Nat → List Nat → M (Option ρ × List Nat)
  | 0, _, _, decoded => .ok (none, decoded)
  | n + 1, i, cur, decoded => do
      let (decoded, len, l) ← decode E d cur decoded 0
      match ← stop i (decoded.take len) with
      | some r => .ok (some r, decoded)
      | none => scanLoopD E d stop n (i + 1) (cur + 2 + len * E.width - l * E.width) decoded

/-- `FC_DICT_LOCATE_INIT` and the scan, include/fc_dictionary.hpp:302-308, include/integer_fc_dictionary.hpp:305-311 -/
def scanD {ρ : Type} (E : Elem) (d : FC) (stop : Nat → List Nat → M (Option ρ)) (h : List Nat) (b : Nat) (decoded : List Nat) :
    M (Option ρ × List Nat) := do
  let decoded ← memcpy decoded 0 h 0 h.length
  let n := d.bucketSize b
  let cur ← accessD d.ptrBuckets b
  scanLoopD E d stop n 1 cur decoded

end FC

namespace FcDict
open FC

/-- Builder, include/fc_dictionary.hpp:17-89 -/
def buildD (terms : List Str) : M FC := FC.buildD Elem.byte 0 FC.lcp terms

/-- bucket-level `locate`, include/fc_dictionary.hpp:344-354 -/
def locateInD (d : FC) (t h : Str) (b : Nat) (buf : Str) : M (Nat × Str) := do
  let (r, buf) ← scanD Elem.byte d
    (fun i s =>
      let cmp := byteCompare t s
      .ok (if cmp = 0 then some i else if cmp < 0 then some INVALID_TERM else none)) h b buf
  .ok (r.getD INVALID_TERM, buf)

/-- `left_locate`, include/fc_dictionary.hpp:356-366 -/
def leftLocateD (d : FC) (p h : Str) (b : Nat) (buf : Str) : M (Nat × Str) := do
  let (r, buf) ← scanD Elem.byte d
    (fun i s => do
      let cmp ← byteCompareND s p p.length
      .ok (if cmp = 0 then some i else none)) h b buf
  .ok (r.getD (d.bucketSize b + 1), buf)

/-- `right_locate`, include/fc_dictionary.hpp:368-378 -/
def rightLocateD (d : FC) (p h : Str) (b : Nat) (buf : Str) : M (Nat × Str) := do
  let (r, buf) ← scanD Elem.byte d
    (fun i s => do
      let cmp ← byteCompareND s p p.length
      .ok (if cmp > 0 then some (i - 1) else none)) h b buf
  .ok (r.getD (d.bucketSize b), buf)

/-- Loops 1 and 3 of `locate_buckets`, include/fc_dictionary.hpp:248-257 and :284-293 -/
def bucketsLoopD (d : FC) (p : Str) (goLeft : Int → Bool) : Nat → Int → Int → M Int
  | 0, _, _ => .error .diverge
  | fuel + 1, lo, hi =>
      if lo ≤ hi then do
        let mi := (lo + hi) / 2
        let h ← d.headerD mi.toNat
        let cmp ← byteCompareND h p p.length
        if goLeft cmp then bucketsLoopD d p goLeft fuel lo (mi - 1)
        else bucketsLoopD d p goLeft fuel (mi + 1) hi
      else .ok lo

/-- The end of step 1 of `locate_buckets`, include/fc_dictionary.hpp:265-269 -/
def leftBucketD (d : FC) (p : Str) (lo : Nat) : M Nat :=
  if lo = 0 then .ok 0 else do
    let h ← d.headerD lo
    .ok (if byteCompare h p = 0 then lo else lo - 1)

/-- `locate_buckets`, include/fc_dictionary.hpp:240-300 -/
def locateBucketsD (d : FC) (p : Str) : M (Nat × Nat) := do
  let nb := d.nBuckets
  let lo ← bucketsLoopD d p (fun cmp => decide (cmp ≥ 0)) (nb + 1) 0 ((nb : Int) - 1)
  let lo := lo.toNat
  if lo = nb then .ok (lo - 1, lo - 1)
  else do
    let left ← leftBucketD d p lo
    if left = nb - 1 then .ok (left, left)
    else do
      let h ← d.headerD (left + 1)
      let cmp ← byteCompareND h p p.length
      if cmp > 0 then .ok (left, left)
      else do
        let lo ← bucketsLoopD d p (fun cmp => decide (cmp > 0)) (nb + 1) left ((nb : Int) - 1)
        .ok (left, (lo - 1).toNat)

/-- include/fc_dictionary.hpp:126-128 -/
def beginOffsetD (d : FC) (p hBegin : Str) (bb : Nat) (buf : Str) : M (Nat × Str) :=
  if byteCompare hBegin p ≠ 0 then leftLocateD d p hBegin bb buf else .ok (0, buf)

/-- `locate_prefix(p)`, include/fc_dictionary.hpp:119-132 -/
def locatePrefixD (d : FC) (p : Str) (buf : Str) : M (Range × Str) := do
  if p.length = 0 then .ok (⟨0, if d.size = 0 then 2 ^ 64 - 1 else d.size - 1⟩, buf)
  else do
    let (bb, be) ← locateBucketsD d p
    let hBegin ← d.headerD bb
    let hEnd ← d.headerD be
    let (off, buf) ← beginOffsetD d p hBegin bb buf
    let pBegin := bb * 17 + off
    let (off, buf) ← rightLocateD d p hEnd be buf
    let pEnd := be * 17 + off
    if pEnd < pBegin then .ok (Range.invalid, buf) else .ok (⟨pBegin, pEnd⟩, buf)

/-- `locate(t)`, include/fc_dictionary.hpp:137-148 -/
def locateD (d : FC) (t : Str) (buf : Str) : M (Nat × Str) := do
  let (isHeader, h, b) ← locateBucketD byteCompare d t
  let base := b * 17 + 1
  if isHeader then .ok (base, buf)
  else do
    let (off, buf) ← locateInD d t h b buf
    if off = INVALID_TERM then .ok (INVALID_TERM, buf) else .ok (base + off, buf)

/-- `extract(id, out)`, include/fc_dictionary.hpp:151-157 (the assertion: 152) -/
def extractD (d : FC) (id : Nat) (out : Str) (base : Nat) : M (Str × Nat) := do
  check (0 < id)
  extractAtD Elem.byte d ((id - 1) % 17) ((id - 1) / 17) out base

end FcDict

namespace IntDict
open FC

/-- `builder(params)` and `build`, include/integer_fc_dictionary.hpp:17-90 -/
def buildD (univ : Nat) (records : List (Nat × Ids)) : M (FC × List Nat) := do
  let n := records.length
  let v ← lexLoop (FC.tail n) ((n + 16) / 17) records 0 (List.replicate univ INVALID_TERM)
  let d ← FC.buildD Elem.u32 1 lcpT (records.map (·.2))
  .ok (d, v)

/-- bucket-level `locate`, include/integer_fc_dictionary.hpp:338-349 (`assert(false)`: 347) -/
def locateInD (d : FC) (t h : Ids) (b : Nat) (buf : Ids) : M (Nat × Ids) := do
  let (r, buf) ← scanD Elem.u32 d
    (fun i s =>
      let cmp := idsCompare t s
      .ok (if cmp = 0 then some i else if cmp < 0 then some INVALID_TERM else none)) h b buf
  match r with
  | some i => .ok (i, buf)
  | none => .error .aborted

/-- `left_locate`, include/integer_fc_dictionary.hpp:364-375 -/
def leftLocateD (d : FC) (p h : Ids) (b : Nat) (buf : Ids) : M (Nat × Ids) := do
  let (r, buf) ← scanD Elem.u32 d
    (fun i s => do
      let cmp ← idsCompareND s p p.length
      .ok (if cmp ≥ 0 then some i else none)) h b buf
  .ok (r.getD (d.bucketSize b + 1), buf)

/-- `right_locate`, include/integer_fc_dictionary.hpp:351-362 -/
def rightLocateD (d : FC) (p h : Ids) (b : Nat) (buf : Ids) : M (Nat × Ids) := do
  let (r, buf) ← scanD Elem.u32 d
    (fun i s => do
      let cmp ← idsCompareND s p p.length
      .ok (if cmp > 0 then some (i - 1) else none)) h b buf
  .ok (r.getD (d.bucketSize b), buf)

/-- The loop of `locate_right_bucket`, include/integer_fc_dictionary.hpp:286-295 -/
def rightBucketLoopD (d : FC) (t : Ids) : Nat → BS → M BS
  | 0, _ => .error .diverge
  | fuel + 1, s =>
      if s.lo ≤ s.hi then do
        let mi := (s.lo + s.hi) / 2
        let h ← d.headerD mi.toNat
        let cmp ← idsCompareND h t t.length
        if cmp > 0 then rightBucketLoopD d t fuel { s with hi := mi - 1, mi := mi, cmp := cmp, h := h }
        else rightBucketLoopD d t fuel { s with lo := mi + 1, mi := mi, cmp := cmp, h := h }
      else .ok s

/-- `locate_right_bucket(t, h, bucket_id, hint)`, include/integer_fc_dictionary.hpp:281-303 -/
def locateRightBucketD (d : FC) (t : Ids) (hint : Nat) : M (Ids × Nat) := do
  let s ← rightBucketLoopD d t (d.nBuckets + 1)
    { lo := hint, hi := (d.nBuckets : Int) - 1, mi := 0, cmp := 0, h := [] }
  if s.cmp < 0 then .ok (s.h, s.mi.toNat)
  else do
    let b := if s.hi = -1 then 0 else s.hi.toNat
    let h ← d.headerD b
    .ok (h, b)

/-- include/integer_fc_dictionary.hpp:153-156 -/
def beginOffsetD (d : FC) (isHeader : Bool) (p h : Ids) (b : Nat) (buf : Ids) : M (Nat × Ids) :=
  if isHeader then .ok (0, buf) else leftLocateD d p h b buf

/-- `locate_prefix(prefix, suffix_lex_range)`, include/integer_fc_dictionary.hpp:146-189 -/
def locatePrefixD (d : FC) (pfx : Ids) (suffix : Range) (buf : Ids) : M (Range × Ids × Ids) := do
  let t := pfx ++ [suffix.b % 2 ^ 32]
  let (isHeader, hBegin, bb) ← locateBucketD idsCompare d t
  let (off, buf) ← beginOffsetD d isHeader t hBegin bb buf
  let pBegin := bb * 17 + off
  let t := pfx ++ [suffix.e % 2 ^ 32]
  let single := suffix.b = suffix.e
  let t' := if single then t ++ [INVALID_TERM] else t
  let (hEnd, be) ← locateRightBucketD d t' bb
  let (off, buf) ← rightLocateD d t' hEnd be buf
  let pEnd := be * 17 + off
  let t'' := t'.dropLast
  if pEnd < pBegin then .ok (Range.invalid, t'', buf)
  else .ok (⟨pBegin, pEnd + 1⟩, if single then t''.dropLast else t'', buf)

/-- `locate(c)`, include/integer_fc_dictionary.hpp:130-141 -/
def locateD (d : FC) (c : Ids) (buf : Ids) : M (Nat × Ids) := do
  let (isHeader, h, b) ← locateBucketD idsCompare d c
  let base := b * 17
  if isHeader then .ok (base, buf)
  else do
    let (off, buf) ← locateInD d c h b buf
    if off = INVALID_TERM then .ok (INVALID_TERM, buf) else .ok (base + off, buf)

/-- `extract(id, c)`, include/integer_fc_dictionary.hpp:193-197 -/
def extractD (d : FC) (id : Nat) (c : Ids) : M (Ids × Nat) := extractAtD Elem.u32 d (id % 17) (id / 17) c 0

end IntDict
end AC
