import Verif.Model.FcDictionary
import Verif.Model.IntDictionary
/-!
# Front-coded dictionaries of any bucket size

`BucketSize` is a template parameter of both dictionaries (include/fc_dictionary.hpp:12,
include/integer_fc_dictionary.hpp:12). The indexes use its default 16, which is fixed in Model/FrontCoding.lean,
Model/FcDictionary.lean and Model/IntDictionary.lean; the benchmarks instantiate it with 4, 8, ..., 256
(benchmark/benchmark_fc_dictionary.cpp:106, benchmark/benchmark_integer_fc_dictionary.cpp:59). Here are the functions whose code mentions
it, with the bucket size `B` as argument; all other functions are shared. `B = 16` gives the definitions of these files
(Proofs/BucketSize.lean).
-/
namespace AC
namespace FC

/-- Number of strings after the header in the last bucket, as computed by the builder and by `bucket_size`:
include/fc_dictionary.hpp:24-26 and :165-167, include/integer_fc_dictionary.hpp:26-28 and :205-207 -/
def tailB (B n : Nat) : Nat :=
  let t := n - (n / (B + 1)) * (B + 1)
  if t ≠ 0 then t - 1 else t

/-- The outer loop of the builder: include/fc_dictionary.hpp:41-60, include/integer_fc_dictionary.hpp:39-61, see
`buildLoop` -/
def buildLoopB (B : Nat) (E : Elem) (lcpOf : List Nat → List Nat → Nat) (tl : Nat) :
    Nat → List (List Nat) → FC → M FC
  | 0, _, d => .ok d
  | _ + 1, [], _ => .error .oob
  | nb + 1, header :: input, d => do
      let headers := d.headers ++ header
      let size := if nb ≠ 0 then B else tl
      let (input, buckets) ← buildBucket E lcpOf size header input d.buckets
      buildLoopB B E lcpOf tl nb input
        { d with headers := headers, buckets := buckets,
                 ptrHeaders := d.ptrHeaders ++ [headers.length % E.ptr],
                 ptrBuckets := d.ptrBuckets ++ [buckets.length % E.ptr] }

/-- `builder(params)` followed by `build`: include/fc_dictionary.hpp:17-89, include/integer_fc_dictionary.hpp:17-90, see
`FC.build` -/
def buildB (B : Nat) (E : Elem) (lcpOf : List Nat → List Nat → Nat) (strings : List (List Nat)) : M FC := do
  let n := strings.length
  let nb := (n + B) / (B + 1)
  let d ← buildLoopB B E lcpOf (tailB B n) nb strings
    { size := n, ptrHeaders := [0], ptrBuckets := [0], headers := [], buckets := [] }
  -- NOTE: pad to allow fixed-copy operations
  .ok { d with buckets := d.buckets ++ List.replicate (E.cap * E.width) 0 }

/-- `bucket_size(bucket_id)`, include/fc_dictionary.hpp:163-168, include/integer_fc_dictionary.hpp:203-208 -/
def bucketSizeB (B : Nat) (d : FC) (b : Nat) : Nat :=
  if b ≠ d.nBuckets - 1 then B else tailB B d.size

/-- `FC_DICT_LOCATE_INIT` and the scan, include/fc_dictionary.hpp:302-308, include/integer_fc_dictionary.hpp:305-311, see
`FC.scan` -/
def scanB {ρ : Type} (B : Nat) (E : Elem) (d : FC) (stop : Nat → List Nat → Option ρ) (h : List Nat) (b : Nat)
    (decoded : List Nat) : M (Option ρ × List Nat) := do
  let decoded ← memcpy decoded 0 h 0 h.length
  let n := bucketSizeB B d b
  let cur ← rd d.ptrBuckets b
  scanLoop E d stop n 1 cur decoded

end FC

namespace FcDict
open FC

/-- Builder, include/fc_dictionary.hpp:17-89 -/
def buildB (B : Nat) (terms : List Str) : M FC := FC.buildB B Elem.byte FC.lcp terms

/-- bucket-level `locate`, include/fc_dictionary.hpp:344-354 -/
def locateInB (B : Nat) (d : FC) (t h : Str) (b : Nat) (buf : Str) : M (Nat × Str) := do
  let (r, buf) ← scanB B Elem.byte d
    (fun i s =>
      let cmp := byteCompare t s
      if cmp = 0 then some i else if cmp < 0 then some INVALID_TERM else none) h b buf
  .ok (r.getD INVALID_TERM, buf)

/-- `left_locate`, include/fc_dictionary.hpp:356-366 -/
def leftLocateB (B : Nat) (d : FC) (p h : Str) (b : Nat) (buf : Str) : M (Nat × Str) := do
  let (r, buf) ← scanB B Elem.byte d
    (fun i s => if byteCompareN s p p.length = 0 then some i else none) h b buf
  .ok (r.getD (bucketSizeB B d b + 1), buf)

/-- `right_locate`, include/fc_dictionary.hpp:368-378 -/
def rightLocateB (B : Nat) (d : FC) (p h : Str) (b : Nat) (buf : Str) : M (Nat × Str) := do
  let (r, buf) ← scanB B Elem.byte d
    (fun i s => if byteCompareN s p p.length > 0 then some (i - 1) else none) h b buf
  .ok (r.getD (bucketSizeB B d b), buf)

/-- `if (byte_range_compare(h_begin, p) != 0) p_begin += left_locate(...)`, include/fc_dictionary.hpp:126-128 -/
def beginOffsetB (B : Nat) (d : FC) (p hBegin : Str) (bb : Nat) (buf : Str) : M (Nat × Str) :=
  if byteCompare hBegin p ≠ 0 then leftLocateB B d p hBegin bb buf else .ok (0, buf)

/-- `locate_prefix(p)`, include/fc_dictionary.hpp:119-132; `size() - 1` is a 64-bit number -/
def locatePrefixB (B : Nat) (d : FC) (p : Str) (buf : Str) : M (Range × Str) := do
  if p.length = 0 then .ok (⟨0, if d.size = 0 then 2 ^ 64 - 1 else d.size - 1⟩, buf)
  else do
    let (bb, be) ← locateBuckets d p
    let hBegin ← d.header bb
    let hEnd ← d.header be
    let (off, buf) ← beginOffsetB B d p hBegin bb buf
    let pBegin := bb * (B + 1) + off
    let (off, buf) ← rightLocateB B d p hEnd be buf
    let pEnd := be * (B + 1) + off
    if pEnd < pBegin then .ok (Range.invalid, buf) else .ok (⟨pBegin, pEnd⟩, buf)

/-- `locate(t)`, include/fc_dictionary.hpp:137-148. Ids are 1-based. -/
def locateB (B : Nat) (d : FC) (t : Str) (buf : Str) : M (Nat × Str) := do
  let (isHeader, h, b) ← locateBucket byteCompare d t
  let base := b * (B + 1) + 1
  if isHeader then .ok (base, buf)
  else do
    let (off, buf) ← locateInB B d t h b buf
    if off = INVALID_TERM then .ok (INVALID_TERM, buf) else .ok (base + off, buf)

/-- `extract(id, out)`, include/fc_dictionary.hpp:151-157, see `FcDict.extract` -/
def extractB (B : Nat) (d : FC) (id : Nat) (out : Str) (base : Nat) : M (Str × Nat) :=
  if id = 0 then .error .oob
  else extractAt Elem.byte d ((id - 1) % (B + 1)) ((id - 1) / (B + 1)) out base

end FcDict

namespace IntDict
open FC

/-- The updates of `m_docid_to_lexid` in the outer loop of the builder, include/integer_fc_dictionary.hpp:38-61 -/
def lexLoopB (B tl : Nat) : Nat → List (Nat × Ids) → Nat → List Nat → M (List Nat)
  | 0, _, _, v => .ok v
  | _ + 1, [], _, _ => .error .oob
  | nb + 1, r :: input, lex, v => do
      let v ← wr v r.1 lex
      let (input, lex, v) ← lexBucket (if nb ≠ 0 then B else tl) input (lex + 1) v
      lexLoopB B tl nb input lex v

/-- `builder(params)` and `build`, include/integer_fc_dictionary.hpp:17-90, see `IntDict.build` -/
def buildB (B univ : Nat) (records : List (Nat × Ids)) : M (FC × List Nat) := do
  let n := records.length
  let v ← lexLoopB B (FC.tailB B n) ((n + B) / (B + 1)) records 0 (List.replicate univ INVALID_TERM)
  let d ← FC.buildB B Elem.u32 lcpT (records.map (·.2))
  .ok (d, v)

/-- bucket-level `locate`, include/integer_fc_dictionary.hpp:338-349 -/
def locateInB (B : Nat) (d : FC) (t h : Ids) (b : Nat) (buf : Ids) : M (Nat × Ids) := do
  let (r, buf) ← scanB B Elem.u32 d
    (fun i s =>
      let cmp := idsCompare t s
      if cmp = 0 then some i else if cmp < 0 then some INVALID_TERM else none) h b buf
  match r with
  | some i => .ok (i, buf)
  | none => .error .unreachable

/-- `left_locate`, include/integer_fc_dictionary.hpp:364-375 -/
def leftLocateB (B : Nat) (d : FC) (p h : Ids) (b : Nat) (buf : Ids) : M (Nat × Ids) := do
  let (r, buf) ← scanB B Elem.u32 d
    (fun i s => if idsCompareN s p p.length ≥ 0 then some i else none) h b buf
  .ok (r.getD (bucketSizeB B d b + 1), buf)

/-- `right_locate`, include/integer_fc_dictionary.hpp:351-362 -/
def rightLocateB (B : Nat) (d : FC) (p h : Ids) (b : Nat) (buf : Ids) : M (Nat × Ids) := do
  let (r, buf) ← scanB B Elem.u32 d
    (fun i s => if idsCompareN s p p.length > 0 then some (i - 1) else none) h b buf
  .ok (r.getD (bucketSizeB B d b), buf)

/-- `if (!is_header_begin) p_begin += left_locate(...)`, include/integer_fc_dictionary.hpp:153-156 -/
def beginOffsetB (B : Nat) (d : FC) (isHeader : Bool) (p h : Ids) (b : Nat) (buf : Ids) : M (Nat × Ids) :=
  if isHeader then .ok (0, buf) else leftLocateB B d p h b buf

/-- `locate_prefix(prefix, suffix_lex_range)`, include/integer_fc_dictionary.hpp:146-189, see `IntDict.locatePrefix` -/
def locatePrefixB (B : Nat) (d : FC) (pfx : Ids) (suffix : Range) (buf : Ids) : M (Range × Ids × Ids) := do
  let t := pfx ++ [suffix.b % 2 ^ 32]
  let (isHeader, hBegin, bb) ← locateBucket idsCompare d t
  let (off, buf) ← beginOffsetB B d isHeader t hBegin bb buf
  let pBegin := bb * (B + 1) + off
  let t := pfx ++ [suffix.e % 2 ^ 32]
  let single := suffix.b = suffix.e
  let t' := if single then t ++ [INVALID_TERM] else t
  let (hEnd, be) ← locateRightBucket d t' bb
  let (off, buf) ← rightLocateB B d t' hEnd be buf
  let pEnd := be * (B + 1) + off
  let t'' := t'.dropLast
  if pEnd < pBegin then .ok (Range.invalid, t'', buf)
  else .ok (⟨pBegin, pEnd + 1⟩, if single then t''.dropLast else t'', buf)

/-- `locate(c)`, include/integer_fc_dictionary.hpp:130-141. Ids are 0-based. -/
def locateB (B : Nat) (d : FC) (c : Ids) (buf : Ids) : M (Nat × Ids) := do
  let (isHeader, h, b) ← locateBucket idsCompare d c
  let base := b * (B + 1)
  if isHeader then .ok (base, buf)
  else do
    let (off, buf) ← locateInB B d c h b buf
    if off = INVALID_TERM then .ok (INVALID_TERM, buf) else .ok (base + off, buf)

/-- `extract(id, c)`, include/integer_fc_dictionary.hpp:193-197: returns the vector `c` and the number of terms -/
def extractB (B : Nat) (d : FC) (id : Nat) (c : Ids) : M (Ids × Nat) :=
  extractAt Elem.u32 d (id % (B + 1)) (id / (B + 1)) c 0

end IntDict
end AC
