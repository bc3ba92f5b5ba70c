import Verif.Prelude
import Verif.Spec.Strings
import Verif.Model.Constants
/-!
# Front coding: the part shared by `fc_dictionary` and `integer_fc_dictionary`

Both classes have the same layout and the same code up to the type of a character (`uint8_t` / `uint32_t`), which is
the parameter `Elem`. The template parameter `BucketSize` is 16, the value used by all index types
(include/fc_dictionary.hpp:12, include/integer_fc_dictionary.hpp:12, include/types.hpp).
-/
namespace AC

/-- The character type of a front-coded dictionary. -/
structure Elem where
  /-- `sizeof` of a character -/
  width : Nat
  /-- the number of characters copied by `decode`: `MAX_NUM_CHARS_PER_QUERY` / `MAX_NUM_TERMS_PER_QUERY` -/
  cap : Nat
  /-- the number of values of a pointer: the elements of `m_pointers_to_*` are `uint32_t` / `uint64_t` -/
  ptr : Nat
  /-- object representation of a character -/
  enc : Nat → List Nat
  /-- the character with a given object representation -/
  dec : List Nat → Nat

/-- `uint8_t`, copied 128 at a time (include/fc_dictionary.hpp:324); pointers: include/fc_dictionary.hpp:12 and :93-94 -/
def Elem.byte : Elem where
  width := 1
  cap := MAX_CHARS
  ptr := 2 ^ 32
  enc c := [c % 256]
  dec l := l.headD 0

/-- little-endian `uint32_t`, copied 64 at a time (include/integer_fc_dictionary.hpp:318-319); pointers:
include/integer_fc_dictionary.hpp:12 and :98-99 -/
def Elem.u32 : Elem where
  width := 4
  cap := MAX_TERMS
  ptr := 2 ^ 64
  enc c := [c % 256, c / 256 % 256, c / 65536 % 256, c / 16777216 % 256]
  dec l := match l with
    | [a, b, c, d] => a + 256 * b + 65536 * c + 16777216 * d
    | _ => 0

/-- Data members: include/fc_dictionary.hpp:206-211, include/integer_fc_dictionary.hpp:246-251.
`m_pointers_to_*` are `uint_vec`s, i.e. plain vectors (include/uint_vec.hpp). -/
structure FC where
  size : Nat
  ptrHeaders : List Nat
  ptrBuckets : List Nat
  headers : List Nat
  buckets : List Nat
  deriving DecidableEq, Repr

namespace FC

/-- `std::vector::insert(end, s)` of characters into a byte vector: their object representations -/
def bytesOf (E : Elem) (s : List Nat) : List Nat := s.flatMap E.enc

/-- `while (l != curr.size() and l != prev.size() and curr[l] == prev[l]) ++l;`
include/fc_dictionary.hpp:51-55, include/integer_fc_dictionary.hpp:52-56 -/
def lcp : List Nat → List Nat → Nat
  | a :: as, b :: bs => if a = b then lcp as bs + 1 else 0
  | _, _ => 0

/-- `builder::write(s, lcp)`, include/fc_dictionary.hpp:104-112, include/integer_fc_dictionary.hpp:112-123
(there, `s` is followed by a terminator which is not written; `l` is at most the length of `s`). `lcp` and `size - lcp` are truncated to a byte.
Simplified: of a completion with more than 255 terms include/integer_fc_dictionary.hpp:117-122 writes fewer of them, `size` being a `uint8_t`; the theorems on
the dictionary of completions are about completions of fewer terms. -/
def write (E : Elem) (buckets s : List Nat) (l : Nat) : List Nat :=
  buckets ++ [l % 256] ++ [(s.length + 256 - l % 256) % 256] ++ bytesOf E (s.drop l)

/-- Number of strings after the header in the last bucket, as computed by the builder and by `bucket_size`:
include/fc_dictionary.hpp:24-26 and :165-167, include/integer_fc_dictionary.hpp:26-28 and :205-207 -/
def tail (n : Nat) : Nat :=
  let t := n - (n / 17) * 17
  if t ≠ 0 then t - 1 else t

/-- The inner loop of the builder: include/fc_dictionary.hpp:48-58, include/integer_fc_dictionary.hpp:48-59.
`lcpOf` is the common prefix length the builder computes. Returns the rest of the input and `m_buckets`. Reading past
the end of the input file is not modelled further than as a fault. -/
def buildBucket (E : Elem) (lcpOf : List Nat → List Nat → Nat) :
    Nat → List Nat → List (List Nat) → List Nat → M (List (List Nat) × List Nat)
  | 0, _, input, buckets => .ok (input, buckets)
  | _ + 1, _, [], _ => .error .oob
  | n + 1, prev, curr :: input, buckets =>
      buildBucket E lcpOf n curr input (write E buckets curr (lcpOf curr prev))

/-- The outer loop of the builder: include/fc_dictionary.hpp:41-60, include/integer_fc_dictionary.hpp:39-61.
The first argument is the number of buckets still to be written. A pointer is the size of the vector, converted to the
element type of `m_pointers_to_*`. -/
def buildLoop (E : Elem) (lcpOf : List Nat → List Nat → Nat) (tl : Nat) :
    Nat → List (List Nat) → FC → M FC
  | 0, _, d => .ok d
  | _ + 1, [], _ => .error .oob
  | nb + 1, header :: input, d => do
      let headers := d.headers ++ header
      let size := if nb ≠ 0 then 16 else tl
      let (input, buckets) ← buildBucket E lcpOf size header input d.buckets
      buildLoop E lcpOf tl nb input
        { d with headers := headers, buckets := buckets,
                 ptrHeaders := d.ptrHeaders ++ [headers.length % E.ptr],
                 ptrBuckets := d.ptrBuckets ++ [buckets.length % E.ptr] }

/-- `builder(params)` followed by `build`: include/fc_dictionary.hpp:17-89, include/integer_fc_dictionary.hpp:17-90.
`strings` are the strings of the input file and `m_size` (`params.num_terms`, `params.num_completions`) is their
number, as written by the preprocessing scripts. `std::ceil(double(m_size) / 17)` is the exact ceiling since `m_size` is
a 32-bit number. -/
def build (E : Elem) (lcpOf : List Nat → List Nat → Nat) (strings : List (List Nat)) : M FC := do
  let n := strings.length
  let nb := (n + 16) / 17
  let d ← buildLoop E lcpOf (tail n) nb strings
    { size := n, ptrHeaders := [0], ptrBuckets := [0], headers := [], buckets := [] }
  -- NOTE: pad to allow fixed-copy operations
  .ok { d with buckets := d.buckets ++ List.replicate (E.cap * E.width) 0 }

/-- `buckets()`, include/fc_dictionary.hpp:170-172, include/integer_fc_dictionary.hpp:210-212 -/
def nBuckets (d : FC) : Nat := d.ptrHeaders.length - 1

/-- `bucket_size(bucket_id)`, include/fc_dictionary.hpp:163-168, include/integer_fc_dictionary.hpp:203-208 -/
def bucketSize (d : FC) (b : Nat) : Nat :=
  if b ≠ d.nBuckets - 1 then 16 else tail d.size

/-- `header(i)`, include/fc_dictionary.hpp:174-179, include/integer_fc_dictionary.hpp:214-219: the returned pair of
pointers is modelled by the characters between them -/
def header (d : FC) (i : Nat) : M (List Nat) := do
  let b ← rd d.ptrHeaders i
  let e ← rd d.ptrHeaders (i + 1)
  if b ≤ e ∧ e ≤ d.headers.length then .ok ((d.headers.drop b).take (e - b)) else .error .oob

/-- `n` characters read from a byte vector at byte offset `off` -/
def readElems (E : Elem) (bytes : List Nat) (off n : Nat) : M (List Nat) :=
  if off + n * E.width ≤ bytes.length then
    .ok ((List.range n).map fun i => E.dec ((bytes.drop (off + i * E.width)).take E.width))
  else .error .oob

/-- `decode(in, out, lcp_len)`, include/fc_dictionary.hpp:310-327, include/integer_fc_dictionary.hpp:314-321.
`in` is `m_buckets.data() + cur`, `out` is the array `out` at offset `base`. Returns the array, the length of the decoded
string and `lcp_len`. -/
def decode (E : Elem) (d : FC) (cur : Nat) (out : List Nat) (base : Nat) :
    M (List Nat × Nat × Nat) := do
  let l ← rd d.buckets cur
  let suffixLen ← rd d.buckets (cur + 1)
  let chars ← readElems E d.buckets (cur + 2) E.cap
  let out ← memcpy out (base + l) chars 0 E.cap
  .ok (out, (l + suffixLen) % 256, l)

/-- The loop of `extract`: include/fc_dictionary.hpp:337-340, include/integer_fc_dictionary.hpp:331-334. The difference of the two `uint8_t` is an `int`, possibly
negative. -/
def extractLoop (E : Elem) (d : FC) :
    Nat → Nat → List Nat → Nat → Nat → M (List Nat × Nat)
  | 0, _, out, _, len => .ok (out, len)
  | n + 1, cur, out, base, _ => do
      let (out, len, l) ← decode E d cur out base
      extractLoop E d n (cur + 2 + len * E.width - l * E.width) out base len

/-- `extract(id, bucket_id, out)`, include/fc_dictionary.hpp:329-342, include/integer_fc_dictionary.hpp:323-336.
Returns the array and the length of the string. -/
def extractAt (E : Elem) (d : FC) (id b : Nat) (out : List Nat) (base : Nat) :
    M (List Nat × Nat) := do
  let h ← d.header b
  let out ← memcpy out base h 0 h.length
  let cur ← rd d.ptrBuckets b
  extractLoop E d id cur out base (h.length % 256)

/-- State of a binary search over the headers: the local variables `lo`, `hi`, `mi`, `cmp`, `h` -/
structure BS where
  lo : Int
  hi : Int
  mi : Int
  cmp : Int
  h : List Nat

/-- The loop of `locate_bucket`: include/fc_dictionary.hpp:216-228, include/integer_fc_dictionary.hpp:257-269.
The Boolean tells whether the loop was left by `return true`. -/
def locateBucketLoop (cmpFn : List Nat → List Nat → Int) (d : FC) (t : List Nat) :
    Nat → BS → M (Bool × BS)
  | 0, _ => .error .diverge
  | fuel + 1, s =>
      if s.lo ≤ s.hi then do
        let mi := (s.lo + s.hi) / 2
        let h ← d.header mi.toNat
        let cmp := cmpFn h t
        if cmp > 0 then
          locateBucketLoop cmpFn d t fuel { s with hi := mi - 1, mi := mi, cmp := cmp, h := h }
        else if cmp < 0 then
          locateBucketLoop cmpFn d t fuel { s with lo := mi + 1, mi := mi, cmp := cmp, h := h }
        else .ok (true, { s with mi := mi, cmp := cmp, h := h })
      else .ok (false, s)

/-- `locate_bucket(t, h, bucket_id)`, include/fc_dictionary.hpp:213-238, include/integer_fc_dictionary.hpp:253-279
(the hint is always the default 0). Returns (is_header, h, bucket_id). -/
def locateBucket (cmpFn : List Nat → List Nat → Int) (d : FC) (t : List Nat) :
    M (Bool × List Nat × Nat) := do
  let (found, s) ← locateBucketLoop cmpFn d t (d.nBuckets + 1)
    { lo := 0, hi := (d.nBuckets : Int) - 1, mi := 0, cmp := 0, h := [] }
  if found then .ok (true, s.h, s.mi.toNat)
  else if s.cmp < 0 then .ok (false, s.h, s.mi.toNat)
  else do
    let b := if s.hi = -1 then 0 else s.hi.toNat
    let h ← d.header b
    .ok (false, h, b)

/-- The scan of a bucket shared by the bucket-level `locate`, `left_locate` and `right_locate`
(include/fc_dictionary.hpp:344-378, include/integer_fc_dictionary.hpp:338-375): decode the strings one by one into the
static array `decoded`, and stop at the first one for which `stop i s` gives a result. Arguments: strings left, index
`i` of the next string, read position, array. Returns the result, if any, and the array. -/
def scanLoop {ρ : Type} (E : Elem) (d : FC) (stop : Nat → List Nat → Option ρ) :
    Nat → Nat → Nat → List Nat → M (Option ρ × List Nat)
  | 0, _, _, decoded => .ok (none, decoded)
  | n + 1, i, cur, decoded => do
      let (decoded, len, l) ← decode E d cur decoded 0
      match stop i (decoded.take len) with
      | some r => .ok (some r, decoded)
      | none => scanLoop E d stop n (i + 1) (cur + 2 + len * E.width - l * E.width) decoded

/-- `FC_DICT_LOCATE_INIT` and the scan, include/fc_dictionary.hpp:302-308, include/integer_fc_dictionary.hpp:305-311.
`decoded` is the content that earlier calls left in the static array. -/
def scan {ρ : Type} (E : Elem) (d : FC) (stop : Nat → List Nat → Option ρ) (h : List Nat) (b : Nat)
    (decoded : List Nat) : M (Option ρ × List Nat) := do
  let decoded ← memcpy decoded 0 h 0 h.length
  let n := d.bucketSize b
  let cur ← rd d.ptrBuckets b
  scanLoop E d stop n 1 cur decoded

end FC
end AC
