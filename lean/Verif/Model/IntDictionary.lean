import Verif.Model.FrontCoding
import Verif.Model.Compare
/-!
# The dictionary of completions, include/integer_fc_dictionary.hpp
-/
namespace AC.IntDict
open FC

/-- The common prefix length computed by the builder, include/integer_fc_dictionary.hpp:52-56: there, both completions
end with the terminator 0 (include/util.hpp:31). Completions are modelled without it. -/
def lcpT (a b : Ids) : Nat := FC.lcp (a ++ [0]) (b ++ [0])

/-- The updates of `m_docid_to_lexid` in the inner loop of the builder, include/integer_fc_dictionary.hpp:48-51.
Arguments: number of records to read, records, next `lex_id`, vector. -/
def lexBucket : Nat → List (Nat × Ids) → Nat → List Nat → M (List (Nat × Ids) × Nat × List Nat)
  | 0, input, lex, v => .ok (input, lex, v)
  | _ + 1, [], _, _ => .error .oob
  | n + 1, r :: input, lex, v => do
      let v ← wr v r.1 lex
      lexBucket n input (lex + 1) v

/-- The updates of `m_docid_to_lexid` in the outer loop of the builder, include/integer_fc_dictionary.hpp:38-61 -/
def lexLoop (tl : Nat) : Nat → List (Nat × Ids) → Nat → List Nat → M (List Nat)
  | 0, _, _, v => .ok v
  | _ + 1, [], _, _ => .error .oob
  | nb + 1, r :: input, lex, v => do
      let v ← wr v r.1 lex
      let (input, lex, v) ← lexBucket (if nb ≠ 0 then 16 else tl) input (lex + 1) v
      lexLoop tl nb input lex v

/-- `builder(params)` and `build`, include/integer_fc_dictionary.hpp:17-90. The records are those of the file `.mapped`
(document id, completion). The loop that fills the dictionary and the one that fills `m_docid_to_lexid` are the same
loop in C++; they work on different data. Returns the dictionary and `docid_to_lexid()`. -/
def build (univ : Nat) (records : List (Nat × Ids)) : M (FC × List Nat) := do
  let n := records.length
  let v ← lexLoop (FC.tail n) ((n + 16) / 17) records 0 (List.replicate univ INVALID_TERM)
  let d ← FC.build Elem.u32 lcpT (records.map (·.2))
  .ok (d, v)

/-- `static uint32_t decoded[2 * MAX_NUM_TERMS_PER_QUERY]`, include/integer_fc_dictionary.hpp:306: its size (one array
for each of the three functions in C++, a single one of arbitrary content in the model) -/
def bufSize : Nat := 2 * MAX_TERMS

/-- bucket-level `locate`, include/integer_fc_dictionary.hpp:338-349 -/
def locateIn (d : FC) (t h : Ids) (b : Nat) (buf : Ids) : M (Nat × Ids) := do
  let (r, buf) ← scan Elem.u32 d
    (fun i s =>
      let cmp := idsCompare t s
      if cmp = 0 then some i else if cmp < 0 then some INVALID_TERM else none) h b buf
  match r with
  | some i => .ok (i, buf)
  | none => .error .unreachable

/-- `left_locate`, include/integer_fc_dictionary.hpp:364-375 -/
def leftLocate (d : FC) (p h : Ids) (b : Nat) (buf : Ids) : M (Nat × Ids) := do
  let (r, buf) ← scan Elem.u32 d
    (fun i s => if idsCompareN s p p.length ≥ 0 then some i else none) h b buf
  .ok (r.getD (d.bucketSize b + 1), buf)

/-- `right_locate`, include/integer_fc_dictionary.hpp:351-362 -/
def rightLocate (d : FC) (p h : Ids) (b : Nat) (buf : Ids) : M (Nat × Ids) := do
  let (r, buf) ← scan Elem.u32 d
    (fun i s => if idsCompareN s p p.length > 0 then some (i - 1) else none) h b buf
  .ok (r.getD (d.bucketSize b), buf)

/-- The loop of `locate_right_bucket`, include/integer_fc_dictionary.hpp:286-295 -/
def rightBucketLoop (d : FC) (t : Ids) : Nat → BS → M BS
  | 0, _ => .error .diverge
  | fuel + 1, s =>
      if s.lo ≤ s.hi then do
        let mi := (s.lo + s.hi) / 2
        let h ← d.header mi.toNat
        let cmp := idsCompareN h t t.length
        if cmp > 0 then rightBucketLoop d t fuel { s with hi := mi - 1, mi := mi, cmp := cmp, h := h }
        else rightBucketLoop d t fuel { s with lo := mi + 1, mi := mi, cmp := cmp, h := h }
      else .ok s

/-- `locate_right_bucket(t, h, bucket_id, hint)`, include/integer_fc_dictionary.hpp:281-303. Returns (h, bucket_id). -/
def locateRightBucket (d : FC) (t : Ids) (hint : Nat) : M (Ids × Nat) := do
  let s ← rightBucketLoop d t (d.nBuckets + 1)
    { lo := hint, hi := (d.nBuckets : Int) - 1, mi := 0, cmp := 0, h := [] }
  if s.cmp < 0 then .ok (s.h, s.mi.toNat)
  else do
    let b := if s.hi = -1 then 0 else s.hi.toNat
    let h ← d.header b
    .ok (h, b)

/-- `if (!is_header_begin) p_begin += left_locate(...)`, include/integer_fc_dictionary.hpp:153-156 -/
def beginOffset (d : FC) (isHeader : Bool) (p h : Ids) (b : Nat) (buf : Ids) : M (Nat × Ids) :=
  if isHeader then .ok (0, buf) else leftLocate d p h b buf

/-- `locate_prefix(prefix, suffix_lex_range)`, include/integer_fc_dictionary.hpp:146-189. Returns the range, the value
of the reference argument `prefix` after the call, and the static array. `push_back` of a 64-bit number truncates it
to 32 bits. -/
def locatePrefix (d : FC) (pfx : Ids) (suffix : Range) (buf : Ids) : M (Range × Ids × Ids) := do
  let t := pfx ++ [suffix.b % 2 ^ 32]
  let (isHeader, hBegin, bb) ← locateBucket idsCompare d t
  let (off, buf) ← beginOffset d isHeader t hBegin bb buf
  let pBegin := bb * 17 + off
  let t := pfx ++ [suffix.e % 2 ^ 32]
  let single := suffix.b = suffix.e
  let t' := if single then t ++ [INVALID_TERM] else t
  let (hEnd, be) ← locateRightBucket d t' bb
  let (off, buf) ← rightLocate d t' hEnd be buf
  let pEnd := be * 17 + off
  let t'' := t'.dropLast
  if pEnd < pBegin then .ok (Range.invalid, t'', buf)
  else .ok (⟨pBegin, pEnd + 1⟩, if single then t''.dropLast else t'', buf)

/-- `locate(c)`, include/integer_fc_dictionary.hpp:130-141. Ids are 0-based. -/
def locate (d : FC) (c : Ids) (buf : Ids) : M (Nat × Ids) := do
  let (isHeader, h, b) ← locateBucket idsCompare d c
  let base := b * 17
  if isHeader then .ok (base, buf)
  else do
    let (off, buf) ← locateIn d c h b buf
    if off = INVALID_TERM then .ok (INVALID_TERM, buf) else .ok (base + off, buf)

/-- `extract(id, c)`, include/integer_fc_dictionary.hpp:193-197: returns the vector `c` and the number of terms -/
def extract (d : FC) (id : Nat) (c : Ids) : M (Ids × Nat) :=
  extractAt Elem.u32 d (id % 17) (id / 17) c 0

end AC.IntDict
