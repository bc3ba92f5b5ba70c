import Verif.Model.Autocomplete4
/-!
# Saving and loading: the functions `visit`

`essentials::save(index, file)` and `essentials::load(index, file)` (src/build.cpp:15 and 26, src/web_server.cpp:97) call the same function
`visit` of the index with two visitors. The library `essentials` is not in the repository: its visitors are modelled by what they are for.
A file is a list of bytes; numbers are written as they are in the memory of a little-endian machine, with the size of their type. Failures
of reading and writing are not represented, except that reading after the end of the file is a fault.

An object visited is taken and given back, possibly changed: `σ → M (α × σ)`, where `σ` is the state of the visitor.
-/
namespace AC

/-- the bytes of a number of type `uint8_t`, `uint16_t`, `uint32_t`, `uint64_t`: `w` of them, the lowest first. What does not fit is cut off. -/
def le : Nat → Nat → List Nat
  | 0, _ => []
  | w + 1, x => x % 256 :: le w (x / 256)

/-- the number with the given bytes -/
def ofLe : List Nat → Nat
  | [] => 0
  | b :: bs => b + 256 * ofLe bs

/-- the bytes of a number of type `int16_t`, `int32_t`, `int64_t` -/
def leInt (w : Nat) (x : Int) : List Nat := le w (x % (256 : Int) ^ w).toNat

/-- the signed number with the given bytes -/
def ofLeInt (bs : List Nat) : Int := (ofLe bs : Int).bmod (256 ^ bs.length)

/-- a visitor: what it does with a member that is an unsigned number of `w` bytes, a signed one, or 64 bits -/
structure Visitor (σ : Type) where
  nat : (w : Nat) → Nat → σ → M (Nat × σ)
  int : (w : Nat) → Int → σ → M (Int × σ)
  word : W → σ → M (W × σ)

namespace Visitor

/-- `essentials::saver`: appends the member to the file -/
def saver : Visitor (List Nat) where
  nat w x s := .ok (x, s ++ le w x)
  int w x s := .ok (x, s ++ leInt w x)
  word x s := .ok (x, s ++ le 8 x.toNat)

/-- `essentials::loader`: replaces the member by what is read; `s` is the part of the file not read yet. -/
def loader : Visitor (List Nat) where
  nat w _ s := if w ≤ s.length then .ok (ofLe (s.take w), s.drop w) else .error .oob
  int w _ s := if w ≤ s.length then .ok (ofLeInt (s.take w), s.drop w) else .error .oob
  word _ s := if 8 ≤ s.length then .ok (BitVec.ofNat 64 (ofLe (s.take 8)), s.drop 8) else .error .oob

variable {σ : Type} (V : Visitor σ)

/-- the elements of a vector in order -/
def each {α : Type} (f : α → σ → M (α × σ)) : List α → σ → M (List α × σ)
  | [], s => .ok ([], s)
  | x :: xs, s => do
      let (x, s) ← f x s
      let (xs, s) ← each f xs s
      .ok (x :: xs, s)

/-- `std::vector::resize(n)`, with default-initialised elements `d` -/
def resize {α : Type} (d : α) (n : Nat) (xs : List α) : List α := xs.take n ++ List.replicate (n - xs.length) d

/-- `visit` of an `std::vector`: its size (`size_t`), then its elements (the library treats those without `visit` all at once, to the same
effect). The saver gets back the size that it was given, the loader another one. -/
def vec {α : Type} (d : α) (f : α → σ → M (α × σ)) (xs : List α) (s : σ) : M (List α × σ) := do
  let (n, s) ← V.nat 8 xs.length s
  each f (resize d n xs) s

/-- a vector of unsigned numbers of `w` bytes -/
def nats (w : Nat) : List Nat → σ → M (List Nat × σ) := V.vec 0 (V.nat w)
/-- a vector of signed numbers of `w` bytes -/
def ints (w : Nat) : List Int → σ → M (List Int × σ) := V.vec 0 (V.int w)
/-- a vector of 64-bit words -/
def words : List W → σ → M (List W × σ) := V.vec 0 V.word

/-- `bit_vector::visit`, include/bit_vector.hpp:390-394 -/
def bv (x : BV) (s : σ) : M (BV × σ) := do
  let (size, s) ← V.nat 8 x.size s
  let (bits, s) ← V.words x.bits s
  .ok ({ x with size := size, bits := bits }, s)

/-- `compact_vector::visit`, include/compact_vector.hpp:313-319 -/
def cv (x : CV) (s : σ) : M (CV × σ) := do
  let (size, s) ← V.nat 8 x.size s
  let (width, s) ← V.nat 8 x.width s
  let (mask, s) ← V.word x.mask s
  let (bits, s) ← V.words x.bits s
  .ok ({ x with size := size, width := width, mask := mask, bits := bits }, s)

/-- `darray::visit`, include/ef/darray.hpp:104-110 -/
def da (x : DA) (s : σ) : M (DA × σ) := do
  let (positions, s) ← V.nat 8 x.positions s
  let (blocks, s) ← V.ints 8 x.blocks s
  let (subs, s) ← V.nats 2 x.subs s
  let (over, s) ← V.nats 8 x.over s
  .ok ({ x with positions := positions, blocks := blocks, subs := subs, over := over }, s)

/-- `ef_sequence::visit`, include/ef/ef_sequence.hpp:205-212 -/
def ef (x : EF) (s : σ) : M (EF × σ) := do
  let (l, s) ← V.nat 1 x.l s
  let (high, s) ← V.bv x.high s
  let (d1, s) ← V.da x.d1 s
  let (low, s) ← V.bv x.low s
  let (size, s) ← V.nat 8 x.size s
  .ok ({ x with l := l, high := high, d1 := d1, low := low, size := size }, s)

/-- `rs_bit_vector::visit`, include/succinct_rmq/rs_bit_vector.hpp:28-34 -/
def rs (x : RS) (s : σ) : M (RS × σ) := do
  let (bv, s) ← V.bv x.bv s
  let (pairs, s) ← V.words x.pairs s
  let (hints, s) ← V.nats 8 x.hints s
  let (hints0, s) ← V.nats 8 x.hints0 s
  .ok ({ x with bv := bv, pairs := pairs, hints := hints, hints0 := hints0 }, s)

/-- `bp_vector::visit`, include/succinct_rmq/bp_vector.hpp:30-36, and `cartesian_tree::visit`, include/succinct_rmq/cartesian_tree.hpp:133-136 -/
def bp (x : BP) (s : σ) : M (BP × σ) := do
  let (rs, s) ← V.rs x.rs s
  let (internal, s) ← V.nat 8 x.internal s
  let (blockMin, s) ← V.ints 2 x.blockMin s
  let (superMin, s) ← V.ints 4 x.superMin s
  .ok ({ x with rs := rs, internal := internal, blockMin := blockMin, superMin := superMin }, s)

/-- `unsorted_list::visit`, include/unsorted_list.hpp:90-94, and `minimal_docids::visit`, include/minimal_docids.hpp:104-108 -/
def ul (x : UL) (s : σ) : M (UL × σ) := do
  let (rmq, s) ← V.bp x.rmq s
  let (list, s) ← V.cv x.list s
  .ok ({ x with rmq := rmq, list := list }, s)

/-- `fc_dictionary::visit`, include/fc_dictionary.hpp:197-204, and `integer_fc_dictionary::visit`, include/integer_fc_dictionary.hpp:237-244;
`uint_vec::visit`, include/uint_vec.hpp:125-128, visits its only member. `p` and `c` are the sizes of a pointer and of a character: 4 and 1
for `fc_dictionary`, 8 and 4 for `integer_fc_dictionary` (include/fc_dictionary.hpp:12 and 210, include/integer_fc_dictionary.hpp:12 and 250). -/
def fc (p c : Nat) (x : FC) (s : σ) : M (FC × σ) := do
  let (size, s) ← V.nat 8 x.size s
  let (ptrHeaders, s) ← V.nats p x.ptrHeaders s
  let (ptrBuckets, s) ← V.nats p x.ptrBuckets s
  let (headers, s) ← V.nats c x.headers s
  let (buckets, s) ← V.nats 1 x.buckets s
  .ok ({ x with size := size, ptrHeaders := ptrHeaders, ptrBuckets := ptrBuckets, headers := headers, buckets := buckets }, s)

/-- `inverted_index::visit`, include/inverted_index.hpp:194-200 -/
def inv (x : InvIdx) (s : σ) : M (InvIdx × σ) := do
  let (numIntegers, s) ← V.nat 8 x.numIntegers s
  let (numDocs, s) ← V.nat 8 x.numDocs s
  let (pointers, s) ← V.ef x.pointers s
  let (data, s) ← V.bv x.data s
  .ok ({ x with numIntegers := numIntegers, numDocs := numDocs, pointers := pointers, data := data }, s)

/-- `compact_forward_index::visit`, include/compact_forward_index.hpp:143-149 -/
def fwd (x : FwdIdx) (s : σ) : M (FwdIdx × σ) := do
  let (numIntegers, s) ← V.nat 8 x.numIntegers s
  let (numTerms, s) ← V.nat 8 x.numTerms s
  let (pointers, s) ← V.ef x.pointers s
  let (data, s) ← V.cv x.data s
  .ok ({ x with numIntegers := numIntegers, numTerms := numTerms, pointers := pointers, data := data }, s)

/-- `blocked_inverted_index::visit`, include/blocked_inverted_index.hpp:428-440 -/
def blk (x : BlkIdx) (s : σ) : M (BlkIdx × σ) := do
  let (numIntegers, s) ← V.nat 8 x.numIntegers s
  let (numDocs, s) ← V.nat 8 x.numDocs s
  let (numTerms, s) ← V.nat 8 x.numTerms s
  let (blocks, s) ← V.nats 4 x.blocks s
  let (ptrLists, s) ← V.ef x.ptrLists s
  let (lists, s) ← V.bv x.lists s
  let (ptrOffs, s) ← V.ef x.ptrOffs s
  let (offs, s) ← V.bv x.offs s
  let (ptrTerms, s) ← V.ef x.ptrTerms s
  let (terms, s) ← V.bv x.terms s
  .ok ({ x with
    numIntegers := numIntegers, numDocs := numDocs, numTerms := numTerms, blocks := blocks, ptrLists := ptrLists, lists := lists,
    ptrOffs := ptrOffs, offs := offs, ptrTerms := ptrTerms, terms := terms }, s)

end Visitor

/-! ## Objects before loading

Vectors are empty; the word of memory that will follow the buffer of a vector is in the object from the start. The numbers are not
initialised in C++; they are 0 here and are all overwritten. -/

/-- an empty `bit_vector` -/
def BV.blank (after : W) : BV := ⟨[], 0, after⟩
/-- an empty `compact_vector` -/
def CV.blank (after : W) : CV := ⟨0, 0, 0, [], after⟩
/-- an empty `ef_sequence`; as in `EF.compress`, the memory after the buffers is never read and taken to be zero -/
def EF.blank : EF := ⟨0, BV.blank 0, ⟨0, [], [], []⟩, BV.blank 0, 0⟩
/-- an empty `cartesian_tree` -/
def BP.blank (after : W) : BP := ⟨⟨BV.blank after, [], [], []⟩, 0, [], []⟩
/-- an empty `unsorted_list` or `minimal_docids` -/
def UL.blank (after1 after2 : W) : UL := ⟨BP.blank after1, CV.blank after2⟩
/-- an empty dictionary -/
def FC.blank : FC := ⟨0, [], [], [], []⟩
/-- an empty `inverted_index` -/
def InvIdx.blank (after : W) : InvIdx := ⟨0, 0, EF.blank, BV.blank after⟩
/-- an empty `compact_forward_index` -/
def FwdIdx.blank (after : W) : FwdIdx := ⟨0, 0, EF.blank, CV.blank after⟩
/-- an empty `blocked_inverted_index` -/
def BlkIdx.blank (mem : Nat → W) : BlkIdx :=
  ⟨0, 0, 0, [], EF.blank, BV.blank (mem 0), EF.blank, BV.blank (mem 1), EF.blank, BV.blank (mem 2)⟩

/-! ## The trie -/

/-- The levels from the four vectors `m_nodes`, `m_pointers`, `m_left_extremes` and `m_sizes`, include/completion_trie.hpp:273-276: the model
keeps a trie by levels, the class by members. There is one vector of pointers less than levels. -/
def Trie.ofColumns (nodes ptrs left sizes : List EF) : List Trie.CLevel :=
  nodes.mapIdx fun i n => ⟨n, ptrs[i]?, left.getD i EF.blank, sizes.getD i EF.blank⟩

/-- `completion_trie::visit`, include/completion_trie.hpp:262-269: `m_size` and the levels -/
def Visitor.trie {σ : Type} (V : Visitor σ) (m : Nat) (x : List Trie.CLevel) (s : σ) : M ((Nat × List Trie.CLevel) × σ) := do
  let (m, s) ← V.nat 4 m s
  let (nodes, s) ← V.vec EF.blank V.ef (x.map (·.nodes)) s
  let (ptrs, s) ← V.vec EF.blank V.ef (x.filterMap (·.ptrs)) s
  let (left, s) ← V.vec EF.blank V.ef (x.map (·.left)) s
  let (sizes, s) ← V.vec EF.blank V.ef (x.map (·.sizes)) s
  .ok ((m, Trie.ofColumns nodes ptrs left sizes), s)

/-! ## The indexes -/

namespace Visitor
variable {σ : Type} (V : Visitor σ)

/-- `autocomplete::visit`, include/autocomplete.hpp:148-156 -/
def index1 (x : Index1) (s : σ) : M (Index1 × σ) := do
  let ((numCompl, completions), s) ← V.trie x.numCompl x.completions s
  let (docs, s) ← V.ul x.docs s
  let (minimal, s) ← V.ul x.minimal s
  let (dict, s) ← V.fc 4 1 x.dict s
  let (inverted, s) ← V.inv x.inverted s
  let (forward, s) ← V.fwd x.forward s
  .ok (⟨completions, docs, minimal, dict, inverted, forward, numCompl⟩, s)

/-- `autocomplete2::visit`, include/autocomplete2.hpp:156-164 -/
def index2 (x : Index2) (s : σ) : M (Index2 × σ) := do
  let (completions, s) ← V.fc 8 4 x.completions s
  let (docs, s) ← V.ul x.docs s
  let (minimal, s) ← V.ul x.minimal s
  let (dict, s) ← V.fc 4 1 x.dict s
  let (inverted, s) ← V.inv x.inverted s
  let (lexids, s) ← V.cv x.lexids s
  .ok (⟨⟨completions, docs, dict, lexids⟩, minimal, inverted⟩, s)

/-- `autocomplete3::visit`, include/autocomplete3.hpp:148-155 -/
def index3 (x : Index3) (s : σ) : M (Index3 × σ) := do
  let (completions, s) ← V.fc 8 4 x.completions s
  let (docs, s) ← V.ul x.docs s
  let (dict, s) ← V.fc 4 1 x.dict s
  let (inverted, s) ← V.inv x.inverted s
  let (lexids, s) ← V.cv x.lexids s
  .ok (⟨⟨completions, docs, dict, lexids⟩, inverted⟩, s)

/-- `autocomplete4::visit`, include/autocomplete4.hpp:140-147 -/
def index4 (x : Index4) (s : σ) : M (Index4 × σ) := do
  let (completions, s) ← V.fc 8 4 x.completions s
  let (docs, s) ← V.ul x.docs s
  let (dict, s) ← V.fc 4 1 x.dict s
  let (inverted, s) ← V.blk x.inverted s
  let (lexids, s) ← V.cv x.lexids s
  .ok (⟨⟨completions, docs, dict, lexids⟩, inverted⟩, s)

end Visitor

/-- `autocomplete()`, include/autocomplete.hpp:15-17, with the memory that will follow the buffers -/
def Index1.blank (mem : Nat → W) : Index1 :=
  ⟨[], UL.blank (mem 0) (mem 1), UL.blank (mem 2) (mem 3), FC.blank, InvIdx.blank (mem 4), FwdIdx.blank (mem 5), 0⟩
/-- `autocomplete2()`, include/autocomplete2.hpp:16-20 -/
def Index2.blank (mem : Nat → W) : Index2 :=
  ⟨⟨FC.blank, UL.blank (mem 0) (mem 1), FC.blank, CV.blank (mem 6)⟩, UL.blank (mem 2) (mem 3), InvIdx.blank (mem 4)⟩
/-- `autocomplete3()`, include/autocomplete3.hpp:25-29 -/
def Index3.blank (mem : Nat → W) : Index3 :=
  ⟨⟨FC.blank, UL.blank (mem 0) (mem 1), FC.blank, CV.blank (mem 6)⟩, InvIdx.blank (mem 4)⟩
/-- `autocomplete4()`, include/autocomplete4.hpp:19-23 -/
def Index4.blank (mem : Nat → W) : Index4 :=
  ⟨⟨FC.blank, UL.blank (mem 0) (mem 1), FC.blank, CV.blank (mem 6)⟩, BlkIdx.blank (fun i => mem (7 + i))⟩

/-- `essentials::save`: the file -/
def save {α : Type} (visit : {σ : Type} → Visitor σ → α → σ → M (α × σ)) (x : α) : M (List Nat) := do
  let (_, file) ← visit Visitor.saver x []
  .ok file

/-- `essentials::load` into the object `x`; what follows in the file is not read -/
def load {α : Type} (visit : {σ : Type} → Visitor σ → α → σ → M (α × σ)) (x : α) (file : List Nat) : M α := do
  let (x, _) ← visit Visitor.loader x file
  .ok x

end AC
