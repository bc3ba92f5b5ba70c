import Verif.Model.Visit
/-!
# The functions `bytes`, and what `print_stats` prints (include/statistics.hpp)

`essentials::pod_bytes(x)` and `essentials::vec_bytes(v)` are functions of the library that is not in the repository: `sizeof(x)`, and the
elements of the vector with its size, `sizeof(size_t) + v.size() * sizeof(T)`. Only the numbers of bytes are modelled, not the text that is
printed. Numbers are not reduced to 64 bits.
-/
namespace AC

/-- `essentials::vec_bytes` of `n` elements of `w` bytes -/
def vecBytes (w n : Nat) : Nat := 8 + n * w

/-- `bit_vector::bytes`, include/bit_vector.hpp:254-256 -/
def BV.bytes (x : BV) : Nat := 8 + vecBytes 8 x.bits.length

/-- `compact_vector::bytes`, include/compact_vector.hpp:301-304 -/
def CV.bytes (x : CV) : Nat := 8 + 8 + 8 + vecBytes 8 x.bits.length

/-- `darray::bytes`, include/ef/darray.hpp:98-102 -/
def DA.bytes (x : DA) : Nat := 8 + vecBytes 8 x.blocks.length + vecBytes 2 x.subs.length + vecBytes 8 x.over.length

/-- `ef_sequence::bytes`, include/ef/ef_sequence.hpp:192-195 -/
def EF.bytes (x : EF) : Nat := 1 + x.high.bytes + x.d1.bytes + x.low.bytes + 8

/-- `rs_bit_vector::bytes`, include/succinct_rmq/rs_bit_vector.hpp:22-26 -/
def RS.bytes (x : RS) : Nat := x.bv.bytes + vecBytes 8 x.pairs.length + vecBytes 8 x.hints.length + vecBytes 8 x.hints0.length

/-- `bp_vector::bytes`, include/succinct_rmq/bp_vector.hpp:23-28, and `cartesian_tree::bytes`, include/succinct_rmq/cartesian_tree.hpp:129-131 -/
def BP.bytes (x : BP) : Nat := x.rs.bytes + 8 + vecBytes 2 x.blockMin.length + vecBytes 4 x.superMin.length

/-- `unsorted_list::bytes`, include/unsorted_list.hpp:86-88, and `minimal_docids::bytes`, include/minimal_docids.hpp:100-102 -/
def UL.bytes (x : UL) : Nat := x.rmq.bytes + x.list.bytes

namespace FC

/-- `data_bytes`, include/fc_dictionary.hpp:181-184 and include/integer_fc_dictionary.hpp:221-224; `c` is the size of a character -/
def dataBytes (c : Nat) (x : FC) : Nat := vecBytes c x.headers.length + vecBytes 1 x.buckets.length

/-- `pointer_bytes`, include/fc_dictionary.hpp:186-188 and include/integer_fc_dictionary.hpp:226-228, with `uint_vec::bytes`,
include/uint_vec.hpp:115-117; `p` is the size of a pointer -/
def pointerBytes (p : Nat) (x : FC) : Nat := vecBytes p x.ptrHeaders.length + vecBytes p x.ptrBuckets.length

/-- `bytes`, include/fc_dictionary.hpp:190-195 and include/integer_fc_dictionary.hpp:230-235 -/
def bytes (p c : Nat) (x : FC) : Nat :=
  8 + vecBytes p x.ptrHeaders.length + vecBytes p x.ptrBuckets.length + vecBytes c x.headers.length + vecBytes 1 x.buckets.length

end FC

namespace InvIdx

/-- `data_bytes`, include/inverted_index.hpp:119-121 -/
def dataBytes (x : InvIdx) : Nat := x.data.bytes

/-- `pointer_bytes`, include/inverted_index.hpp:123-125 -/
def pointerBytes (x : InvIdx) : Nat := x.pointers.bytes

/-- `bytes`, include/inverted_index.hpp:127-131 -/
def bytes (x : InvIdx) : Nat := 8 + 8 + x.pointers.bytes + x.data.bytes

end InvIdx

namespace FwdIdx

/-- `data_bytes`, include/compact_forward_index.hpp:129-131 -/
def dataBytes (x : FwdIdx) : Nat := x.data.bytes

/-- `pointer_bytes`, include/compact_forward_index.hpp:133-135 -/
def pointerBytes (x : FwdIdx) : Nat := x.pointers.bytes

/-- `bytes`, include/compact_forward_index.hpp:137-141 -/
def bytes (x : FwdIdx) : Nat := 8 + 8 + x.pointers.bytes + x.data.bytes

end FwdIdx

namespace BlkIdx

/-- `blocks_bytes`, include/blocked_inverted_index.hpp:227-229 -/
def blocksBytes (x : BlkIdx) : Nat := vecBytes 4 x.blocks.length

/-- `pointers_bytes`, include/blocked_inverted_index.hpp:231-234 -/
def pointersBytes (x : BlkIdx) : Nat := x.ptrLists.bytes + x.ptrOffs.bytes + x.ptrTerms.bytes

/-- `docs_bytes`, include/blocked_inverted_index.hpp:236-238 -/
def docsBytes (x : BlkIdx) : Nat := x.lists.bytes

/-- `offsets_bytes`, include/blocked_inverted_index.hpp:240-242 -/
def offsetsBytes (x : BlkIdx) : Nat := x.offs.bytes

/-- `terms_bytes`, include/blocked_inverted_index.hpp:244-246 -/
def termsBytes (x : BlkIdx) : Nat := x.terms.bytes

/-- `bytes`, include/blocked_inverted_index.hpp:217-225 -/
def bytes (x : BlkIdx) : Nat :=
  8 + 8 + 8 + vecBytes 4 x.blocks.length + x.ptrLists.bytes + x.lists.bytes + x.ptrOffs.bytes + x.offs.bytes + x.ptrTerms.bytes + x.terms.bytes

end BlkIdx

namespace Trie

/-- `m_pointers[i].bytes()`; there are no pointers at the last level -/
def ptrBytes (t : CLevel) : M Nat :=
  match t.ptrs with
  | some p => .ok p.bytes
  | none => .error .oob

/-- `if (i != levels - 1) bytes += m_pointers[i].bytes();`, include/completion_trie.hpp:225-227: the bytes added -/
def ptrBytesIf (levels i : Nat) (t : CLevel) : M Nat := if i ≠ levels - 1 then ptrBytes t else .ok 0

/-- the loop of `bytes`, include/completion_trie.hpp:221-228, from level `i` on -/
def bytesLoop (levels : Nat) : Nat → List CLevel → Nat → M Nat
  | _, [], bytes => .ok bytes
  | i, t :: ts, bytes => do
      let p ← ptrBytesIf levels i t
      bytesLoop levels (i + 1) ts (bytes + t.nodes.bytes + t.left.bytes + t.sizes.bytes + p)

/-- `bytes`, include/completion_trie.hpp:217-230 -/
def bytes (x : List CLevel) : M Nat := bytesLoop x.length 0 x (4 + 8 * 4)

/-- `nodes_bytes`, include/completion_trie.hpp:232-236 -/
def nodesBytes (x : List CLevel) : Nat := x.foldl (fun bytes t => bytes + t.nodes.bytes) 8

/-- the loop of `pointers_bytes`, include/completion_trie.hpp:240-242 -/
def pointersLoop : List CLevel → Nat → M Nat
  | [], bytes => .ok bytes
  | t :: ts, bytes => do
      let p ← ptrBytes t
      pointersLoop ts (bytes + p)

/-- `pointers_bytes`, include/completion_trie.hpp:238-244 (for a trie with levels: without, the loop would not end) -/
def pointersBytes (x : List CLevel) : M Nat := pointersLoop x.dropLast 8

/-- `left_extremes_bytes`, include/completion_trie.hpp:246-250 -/
def leftBytes (x : List CLevel) : Nat := x.foldl (fun bytes t => bytes + t.left.bytes) 8

/-- `sizes_bytes`, include/completion_trie.hpp:252-256 -/
def sizesBytes (x : List CLevel) : Nat := x.foldl (fun bytes t => bytes + t.sizes.bytes) 8

end Trie

/-- `autocomplete::bytes`, include/autocomplete.hpp:140-144 -/
def Index1.bytes (x : Index1) : M Nat := do
  let c ← Trie.bytes x.completions
  .ok (c + x.docs.bytes + x.minimal.bytes + x.dict.bytes 4 1 + x.inverted.bytes + x.forward.bytes)

/-- `autocomplete2::bytes`, include/autocomplete2.hpp:148-152 -/
def Index2.bytes (x : Index2) : Nat :=
  x.completions.bytes 8 4 + x.docs.bytes + x.minimal.bytes + x.dict.bytes 4 1 + x.lexids.bytes + x.inverted.bytes

/-- `autocomplete3::bytes`, include/autocomplete3.hpp:140-144 -/
def Index3.bytes (x : Index3) : Nat :=
  x.completions.bytes 8 4 + x.docs.bytes + x.dict.bytes 4 1 + x.lexids.bytes + x.inverted.bytes

/-- `autocomplete4::bytes`, include/autocomplete4.hpp:132-136 -/
def Index4.bytes (x : Index4) : Nat :=
  x.completions.bytes 8 4 + x.docs.bytes + x.dict.bytes 4 1 + x.lexids.bytes + x.inverted.bytes

/-- The bytes that `print_stats` of type 1 prints, include/statistics.hpp:46-88: in total and of each part, in the order of the lines -/
def Index1.stats (x : Index1) : M (List Nat) := do
  let total ← x.bytes
  let c ← Trie.bytes x.completions
  let p ← Trie.pointersBytes x.completions
  .ok [total, c, Trie.nodesBytes x.completions, p, Trie.leftBytes x.completions, Trie.sizesBytes x.completions, x.docs.bytes, x.minimal.bytes,
    x.dict.bytes 4 1, x.dict.dataBytes 1, x.dict.pointerBytes 4, x.inverted.bytes, x.inverted.dataBytes, x.inverted.pointerBytes, x.forward.bytes,
    x.forward.dataBytes, x.forward.pointerBytes]

/-- The numbers by which `print_stats` of type 1 divides (`m_completions.size()`, `m_dictionary.size()`, `m_inverted_index.num_integers()` and
`m_forward_index.num_integers()`), include/statistics.hpp:46-88 -/
def Index1.counts (x : Index1) : List Nat := [x.numCompl, x.dict.size, x.inverted.numIntegers, x.forward.numIntegers]

/-- `print_stats` of type 2, include/statistics.hpp:91-123 -/
def Index2.stats (x : Index2) : List Nat :=
  [x.bytes, x.completions.bytes 8 4, x.completions.dataBytes 4, x.completions.pointerBytes 8, x.docs.bytes, x.minimal.bytes, x.dict.bytes 4 1,
    x.dict.dataBytes 1, x.dict.pointerBytes 4, x.inverted.bytes, x.inverted.dataBytes, x.inverted.pointerBytes, x.lexids.bytes]

/-- the numbers by which `print_stats` of type 2 divides, include/statistics.hpp:91-123 -/
def Index2.counts (x : Index2) : List Nat := [x.completions.size, x.dict.size, x.inverted.numIntegers]

/-- `print_stats` of type 3, include/statistics.hpp:125-147 -/
def Index3.stats (x : Index3) : List Nat :=
  [x.bytes, x.completions.bytes 8 4, x.docs.bytes, x.dict.bytes 4 1, x.inverted.bytes, x.inverted.dataBytes, x.inverted.pointerBytes, x.lexids.bytes]

/-- the numbers by which `print_stats` of type 3 divides, include/statistics.hpp:125-147 -/
def Index3.counts (x : Index3) : List Nat := [x.completions.size, x.inverted.numIntegers]

/-- `print_stats` of type 4, include/statistics.hpp:150-182 -/
def Index4.stats (x : Index4) : List Nat :=
  [x.bytes, x.completions.bytes 8 4, x.docs.bytes, x.dict.bytes 4 1, x.inverted.bytes, x.inverted.blocksBytes, x.inverted.pointersBytes,
    x.inverted.docsBytes, x.inverted.termsBytes, x.inverted.offsetsBytes, x.lexids.bytes]

/-- the numbers by which `print_stats` of type 4 divides, and the number of blocks that it prints, include/statistics.hpp:150-182 -/
def Index4.counts (x : Index4) : List Nat := [x.completions.size, x.inverted.numIntegers, x.inverted.numBlocks]

end AC
