import Verif.Model.Pool
import Verif.Model.Parse
import Verif.Model.Trie
import Verif.Model.IntDictionary
import Verif.Model.ForwardIndex
import Verif.Model.UnionTopK
/-!
# The index types 1, 2 and 3: include/autocomplete.hpp, include/autocomplete2.hpp, include/autocomplete3.hpp

Probes only measure time and are not modelled. Instances (include/types.hpp:31-41): type 1 is made of `completion_trie`,
`fc_dictionary`, `inverted_index<compact_ef>` and `compact_forward_index`; types 2 and 3 of `integer_fc_dictionary`,
`fc_dictionary` and `inverted_index<compact_ef>`.
-/
namespace AC

/-- The input of the constructors: the files written by the preprocessing (`.dict`, `.mapped`, `.inverted`, `.forward`) and the
parameters of `.stats` that are not the length of one of them; include/parameters.hpp:11-61. How the files are parsed is
modelled in Model/Text.lean. -/
structure Files where
  terms : List Str
  mapped : List (Nat × Ids)
  inverted : List (List Nat)
  forward : List (List Nat)
  univ : Nat
  levels : Nat
  maxLen : Nat
  deriving DecidableEq

/-- The state that queries modify: `m_pool`, `m_topk_completion_set` (types 2 to 4; `completion_set`,
include/util_types.hpp:13-33), and the static arrays of the two dictionaries. -/
structure Scratch where
  pool : Pool
  dbuf : Str
  cbuf : Ids
  compl : List Ids
  sizes : List Nat
  deriving DecidableEq

/-- after construction: include/autocomplete.hpp:15-17, include/autocomplete2.hpp:16-20, include/autocomplete3.hpp:25-29 -/
def Scratch.fresh : Scratch :=
  ⟨Pool.fresh, List.replicate FcDict.bufSize 0, List.replicate IntDict.bufSize 0,
    List.replicate MAX_K (List.replicate (2 * MAX_TERMS) 0), List.replicate MAX_K 0⟩

/-- The beginning of `prefix_topk` and of `conjunctive_topk` in all the index types: `init()`, `parse`, `locate_prefix` of the suffix;
include/autocomplete.hpp:41-54 and 74-84, include/autocomplete2.hpp:44-57 and 78-88, include/autocomplete3.hpp:52-65 and 86-97.
No range when the query is over; otherwise the ids of the complete terms and the (closed, from 0) range of the last one.
With `must_find_prefix` false `parse` always returns true. -/
def analyse (d : FC) (q : Str) (must : Bool) (s : Scratch) : M (Scratch × Option (Ids × Range)) := do
  let (ok, pfx, suffix, dbuf) ← parse d q must s.dbuf
  if ok then do
    let (r, dbuf) ← FcDict.locatePrefix d suffix dbuf
    if r.isInvalid then .ok ({ s with pool := s.pool.init, dbuf := dbuf }, none)
    else .ok ({ s with pool := s.pool.init, dbuf := dbuf }, some (pfx, r))
  else .ok ({ s with pool := s.pool.init, dbuf := dbuf }, none)

/-- What the loops over documents use of an iterator: `has_next()`, `*it` and `++it` -/
structure DocIter (σ : Type) where
  hasNext : σ → Bool
  value : σ → Nat
  next : σ → M σ

/-- `compact_ef::iterator`, include/ef/compact_ef.hpp:95-111; documents are converted to 32-bit numbers when they are used -/
def DocIter.list (ii : InvIdx) : DocIter CEI := ⟨CEI.hasNext, fun it => id32 it.value, fun it => it.next ii.data⟩

/-- `intersection_iterator_type`, include/inverted_index.hpp:154-167 -/
def DocIter.inter (ii : InvIdx) : DocIter Inter := ⟨Inter.hasNext ii, Inter.candidate, Inter.inc ii⟩

/-- `conjunctive_topk(prefix, suffix, k)`, include/autocomplete.hpp:175-184, include/autocomplete2.hpp:196-205,
include/autocomplete3.hpp:191-198: the choice of the iterator over the documents that contain all the complete terms; `run` is the
loop -/
def withDocs {β : Type} (std : StdLib) (ii : InvIdx) (pfx : Ids) (run : {σ : Type} → DocIter σ → σ → M β) : M β :=
  let c := deduplicate std pfx
  if c.length = 1 then do
    let t ← rd c 0
    let it ← ii.iteratorOf t
    run (DocIter.list ii) it
  else do
    let it ← Inter.mk' std ii c
    run (DocIter.inter ii) it

/-! ## Type 1 -/

/-- `autocomplete`, data members: include/autocomplete.hpp:160-167, without `m_pool`. `completions` and `numCompl` are the vectors and `m_size`
of the trie. -/
structure Index1 where
  completions : List Trie.CLevel
  docs : UL
  minimal : UL
  dict : FC
  inverted : InvIdx
  forward : FwdIdx
  numCompl : Nat

namespace Index1

/-- `autocomplete(params)`, include/autocomplete.hpp:19-33; `mem` gives the words that follow the buffers in memory.
`cm_builder.doc_ids()` are the document ids of the records in their order (include/completion_trie.hpp:14-114); `m_size` of the trie is
`params.num_completions` (include/completion_trie.hpp:15, 131). -/
def build (F : Files) (mem : Nat → W) : M Index1 := do
  let ib ← InvBuilder.mk' F.univ F.inverted
  let docs ← UL.build (F.mapped.map (·.1)) (mem 0) (mem 1)
  let minimal ← UL.build ib.minimal (mem 2) (mem 3)
  let completions ← Trie.build F.levels (F.mapped.map (·.2))
  let dict ← FcDict.build F.terms
  let inverted ← ib.build (mem 4)
  let forward ← FwdIdx.build F.terms.length F.forward (mem 5)
  .ok ⟨completions, docs, minimal, dict, inverted, forward, F.mapped.length⟩

/-- how `extract_strings` reads the terms of the `i`-th result, include/autocomplete.hpp:203-208; after `j` increments the iterator
is at the `j`-th term -/
def source (x : Index1) (scores : List Nat) (i : Nat) : M (Nat × (Nat → M Nat)) := do
  let doc ← rd scores i
  let it ← x.forward.iterator doc
  .ok (it.n, fun j => FwdIt.deref x.forward { it with i := j })

/-- `extract_strings(num_completions)`, include/autocomplete.hpp:200-221 -/
def extract (x : Index1) (n : Nat) (s : Scratch) : M Scratch := do
  let pool ← extractStrings x.dict (x.source s.pool.scores) n 0 s.pool
  .ok { s with pool := pool }

/-- `prefix_topk(query, k)`, include/autocomplete.hpp:35-66 -/
def prefixTopk (std : StdLib) (x : Index1) (q : Str) (k : Nat) (s : Scratch) : M Scratch := do
  let (s, a) ← analyse x.dict q true s
  match a with
  | none => .ok s
  | some (pfx, r) => do
      let r ← Trie.locatePrefix x.completions pfx ⟨r.b + 1, r.e + 1⟩
      if r.isInvalid then .ok s
      else do
        let (scores, n) ← UL.topk std x.docs r.b r.e k false s.pool.scores
        x.extract n { s with pool := { s.pool with scores := scores } }

/-- the loop of `conjunctive_topk(it, r, k)`, include/autocomplete.hpp:186-198: scores and number of results -/
def conjLoop {σ : Type} (x : Index1) (I : DocIter σ) (r : Range) (k : Nat) : Nat → σ → List Nat → Nat → M (List Nat × Nat)
  | 0, _, _, _ => .error .diverge
  | fuel + 1, it, scores, n =>
      if I.hasNext it then do
        let found ← x.forward.intersects (I.value it) r
        if found then do
          let scores ← wr scores n (I.value it)
          if n + 1 = k then .ok (scores, n + 1)
          else do
            let it ← I.next it
            conjLoop x I r k fuel it scores (n + 1)
        else do
          let it ← I.next it
          conjLoop x I r k fuel it scores n
      else .ok (scores, n)

/-- the two cases, include/autocomplete.hpp:85-95. The loop considers each document at most once. -/
def conjScores (std : StdLib) (x : Index1) (pfx : Ids) (r : Range) (k : Nat) (scores : List Nat) : M (List Nat × Nat) :=
  if pfx.length = 0 then MinDocs.topk std x.inverted x.minimal r.b (r.e + 1) k scores
  else withDocs std x.inverted pfx fun I it =>
    x.conjLoop I ⟨r.b + 1, r.e + 1⟩ k (x.inverted.numDocs + 1) it scores 0

/-- `conjunctive_topk(query, k)`, include/autocomplete.hpp:68-101 -/
def conjTopk (std : StdLib) (x : Index1) (q : Str) (k : Nat) (s : Scratch) : M Scratch := do
  let (s, a) ← analyse x.dict q false s
  match a with
  | none => .ok s
  | some (pfx, r) => do
      let (scores, n) ← x.conjScores std pfx r k s.pool.scores
      x.extract n { s with pool := { s.pool with scores := scores } }

end Index1

/-! ## What types 2, 3 and 4 have in common -/

/-- `m_completions`, `m_unsorted_docs_list`, `m_dictionary` and `m_docid_to_lexid`: include/autocomplete2.hpp:167-173,
include/autocomplete3.hpp:158-162, include/autocomplete4.hpp:150-154 -/
structure Base where
  completions : FC
  docs : UL
  dict : FC
  lexids : CV

/-- the loop of `util::invert`, include/building_util.hpp:12-16; arguments: `docid_to_lexid` from `doc_id` on, `doc_id`, result -/
def invertLoop (size : Nat) : List Nat → Nat → List Nat → List Nat
  | [], _, v => v
  | lex :: rest, doc, v => invertLoop size rest (doc + 1) (if lex < size then v.set lex doc else v)

/-- `util::invert(docid_to_lexid, size)`, include/building_util.hpp:9-18 -/
def invert (docToLex : List Nat) (size : Nat) : List Nat := invertLoop size docToLex 0 (List.replicate size 0)

namespace Base

/-- the part of the constructors about these members, include/autocomplete2.hpp:22-36, include/autocomplete3.hpp:31-44,
include/autocomplete4.hpp:25-38 -/
def build (F : Files) (mem : Nat → W) : M Base := do
  let (completions, docToLex) ← IntDict.build F.univ F.mapped
  let lexids ← CV.build (toWords docToLex) (ceilLog2 (F.mapped.length + 1)) (mem 6)
  let docs ← UL.build (invert docToLex F.mapped.length) (mem 0) (mem 1)
  let dict ← FcDict.build F.terms
  .ok ⟨completions, docs, dict, lexids⟩

/-- `m_completions.extract(m_docid_to_lexid[doc_id], completions[i])`, include/autocomplete2.hpp:190-191 and 217-218,
include/autocomplete3.hpp:179-180, include/autocomplete4.hpp:170-172: the completions and the size -/
def load (x : Base) (doc i : Nat) (compl : List Ids) : M (List Ids × Nat) := do
  let lex ← x.lexids.get doc
  let row ← rd compl i
  let (row, size) ← IntDict.extract x.completions lex.toNat row
  let compl ← wr compl i row
  .ok (compl, size)

/-- `extract_completions(num_completions)`, include/autocomplete2.hpp:184-194, include/autocomplete3.hpp:173-183,
include/autocomplete4.hpp:165-175; with the number of iterations left -/
def extractCompletions (x : Base) (scores : List Nat) : Nat → Nat → List Ids → List Nat → M (List Ids × List Nat)
  | 0, _, compl, sizes => .ok (compl, sizes)
  | n + 1, i, compl, sizes => do
      let doc ← rd scores i
      let (compl, size) ← x.load doc i compl
      let sizes ← wr sizes i size
      extractCompletions x scores n (i + 1) compl sizes

/-- how `extract_strings` reads the terms of the `i`-th result, include/autocomplete2.hpp:235-241,
include/autocomplete3.hpp:243-249, include/autocomplete4.hpp:268-274 -/
def source (compl : List Ids) (sizes : List Nat) (i : Nat) : M (Nat × (Nat → M Nat)) := do
  let c ← rd compl i
  let size ← rd sizes i
  .ok (size, fun j => rd c j)

/-- `extract_strings(num_completions)`, include/autocomplete2.hpp:232-254, include/autocomplete3.hpp:240-262,
include/autocomplete4.hpp:265-287 -/
def strings (x : Base) (n : Nat) (s : Scratch) : M Scratch := do
  let pool ← extractStrings x.dict (source s.compl s.sizes) n 0 s.pool
  .ok { s with pool := pool }

/-- `extract_completions(n); extract_strings(n);` -/
def extract (x : Base) (n : Nat) (s : Scratch) : M Scratch := do
  let (compl, sizes) ← x.extractCompletions s.pool.scores n 0 s.compl s.sizes
  x.strings n { s with compl := compl, sizes := sizes }

/-- `prefix_topk(query, k)`, include/autocomplete2.hpp:38-70, include/autocomplete3.hpp:46-78, include/autocomplete4.hpp:40-72.
The local `prefix`, which `locate_prefix` may have modified, is not read again. -/
def prefixTopk (std : StdLib) (x : Base) (q : Str) (k : Nat) (s : Scratch) : M Scratch := do
  let (s, a) ← analyse x.dict q true s
  match a with
  | none => .ok s
  | some (pfx, r) => do
      let (r, _, cbuf) ← IntDict.locatePrefix x.completions pfx ⟨r.b + 1, r.e + 1⟩ s.cbuf
      if r.isInvalid then .ok { s with cbuf := cbuf }
      else do
        let (scores, n) ← UL.topk std x.docs r.b r.e k false s.pool.scores
        x.extract n { s with cbuf := cbuf, pool := { s.pool with scores := scores } }

end Base

/-! ## Type 2 -/

/-- `autocomplete2`, data members: include/autocomplete2.hpp:166-173, without `m_pool` and `m_topk_completion_set` -/
structure Index2 extends Base where
  minimal : UL
  inverted : InvIdx

namespace Index2

/-- `autocomplete2(params)`, include/autocomplete2.hpp:22-36 -/
def build (F : Files) (mem : Nat → W) : M Index2 := do
  let ib ← InvBuilder.mk' F.univ F.inverted
  let base ← Base.build F mem
  let minimal ← UL.build ib.minimal (mem 2) (mem 3)
  let inverted ← ib.build (mem 4)
  .ok ⟨base, minimal, inverted⟩

/-- the loop over the terms of the completion, include/autocomplete2.hpp:219-227: whether one of them is in the range; with the
number of iterations left -/
def anyTerm (r : Range) (row : Ids) : Nat → Nat → M Bool
  | 0, _ => .ok false
  | n + 1, j => do
      let t ← rd row j
      if r.contains t then .ok true else anyTerm r row n (j + 1)

/-- the loop of `conjunctive_topk(it, r, k)`, include/autocomplete2.hpp:207-230 -/
def conjLoop {σ : Type} (x : Index2) (I : DocIter σ) (r : Range) (k : Nat) :
    Nat → σ → List Nat → List Ids → List Nat → Nat → M (List Nat × List Ids × List Nat × Nat)
  | 0, _, _, _, _, _ => .error .diverge
  | fuel + 1, it, scores, compl, sizes, i =>
      if I.hasNext it then do
        let (compl, size) ← x.load (I.value it) i compl
        let row ← rd compl i
        let found ← anyTerm r row size 0
        if found then do
          let scores ← wr scores i (I.value it)
          let sizes ← wr sizes i size
          if i + 1 = k then .ok (scores, compl, sizes, i + 1)
          else do
            let it ← I.next it
            conjLoop x I r k fuel it scores compl sizes (i + 1)
        else do
          let it ← I.next it
          conjLoop x I r k fuel it scores compl sizes i
      else .ok (scores, compl, sizes, i)

/-- `conjunctive_topk(query, k)`, include/autocomplete2.hpp:72-106 -/
def conjTopk (std : StdLib) (x : Index2) (q : Str) (k : Nat) (s : Scratch) : M Scratch := do
  let (s, a) ← analyse x.dict q false s
  match a with
  | none => .ok s
  | some (pfx, r) =>
      if pfx.length = 0 then do
        let (scores, n) ← MinDocs.topk std x.inverted x.minimal r.b (r.e + 1) k s.pool.scores
        x.extract n { s with pool := { s.pool with scores := scores } }
      else do
        let (scores, compl, sizes, n) ← withDocs std x.inverted pfx fun I it =>
          x.conjLoop I ⟨r.b + 1, r.e + 1⟩ k (x.inverted.numDocs + 1) it s.pool.scores s.compl s.sizes 0
        x.strings n { s with pool := { s.pool with scores := scores }, compl := compl, sizes := sizes }

end Index2

/-! ## Type 3 -/

/-- `autocomplete3`, data members: include/autocomplete3.hpp:157-162, without `m_pool` and `m_topk_completion_set` -/
structure Index3 extends Base where
  inverted : InvIdx

namespace Index3

/-- `autocomplete3(params)`, include/autocomplete3.hpp:31-44 -/
def build (F : Files) (mem : Nat → W) : M Index3 := do
  let ib ← InvBuilder.mk' F.univ F.inverted
  let base ← Base.build F mem
  let inverted ← ib.build (mem 4)
  .ok ⟨base, inverted⟩

/-- `if (!z.has_next()) q.pop(); else q.heapify();`, include/autocomplete3.hpp:222-226 -/
def restore (std : StdLib) (hasNext : Bool) (q : List CEI) : M (List CEI) :=
  if hasNext then Heap.heapify CEI.value q else Heap.pop std CEI.value q

/-- the inner loop, include/autocomplete3.hpp:216-234, for the document `doc`: whether it is in one of the lists; every iteration
but the last moves one of the iterators to `doc` or beyond -/
def advance (std : StdLib) (x : Index3) (doc : Nat) : Nat → List CEI → M (Bool × List CEI)
  | 0, _ => .error .diverge
  | fuel + 1, q =>
      match q with
      | [] => .ok (false, [])
      | z :: zs =>
          if z.value > doc then .ok (false, z :: zs)
          else if z.value < doc then do
            let z ← z.nextGeq x.inverted.data doc
            let q ← restore std z.hasNext (z :: zs)
            if z.value = doc then .ok (true, q) else advance std x doc fuel q
          else .ok (true, z :: zs)

/-- the loop of `conjunctive_topk(it, r, k)`, include/autocomplete3.hpp:213-237 -/
def conjLoop {σ : Type} (std : StdLib) (x : Index3) (I : DocIter σ) (k : Nat) :
    Nat → σ → List CEI → List Nat → Nat → M (List Nat × Nat)
  | 0, _, _, _, _ => .error .diverge
  | fuel + 1, it, q, scores, n =>
      if I.hasNext it && !q.isEmpty then do
        let (found, q) ← advance std x (I.value it) (q.length + 1) q
        if found then do
          let scores ← wr scores n (I.value it)
          if n + 1 = k then .ok (scores, n + 1)
          else do
            let it ← I.next it
            conjLoop std x I k fuel it q scores (n + 1)
        else do
          let it ← I.next it
          conjLoop std x I k fuel it q scores n
      else .ok (scores, n)

/-- `conjunctive_topk(it, r, k)`, include/autocomplete3.hpp:200-238; `fill` is the loop of 208-211 -/
def conjScan {σ : Type} (std : StdLib) (x : Index3) (I : DocIter σ) (it : σ) (r : Range) (k : Nat) (scores : List Nat) :
    M (List Nat × Nat) := do
  let q ← HeapTopK.fill x.inverted (r.e + 1 - r.b) r.b
  conjLoop std x I k (x.inverted.numDocs + 1) it (Heap.makeHeap std CEI.value q) scores 0

/-- `conjunctive_topk(prefix, suffix_lex_range, k)`, include/autocomplete3.hpp:185-198 -/
def conjScores (std : StdLib) (x : Index3) (pfx : Ids) (r : Range) (k : Nat) (scores : List Nat) : M (List Nat × Nat) :=
  if pfx.length = 0 then HeapTopK.topk std x.inverted r.b r.e k scores
  else withDocs std x.inverted pfx fun I it => x.conjScan std I it r k scores

/-- `conjunctive_topk(query, k)`, include/autocomplete3.hpp:80-108 -/
def conjTopk (std : StdLib) (x : Index3) (q : Str) (k : Nat) (s : Scratch) : M Scratch := do
  let (s, a) ← analyse x.dict q false s
  match a with
  | none => .ok s
  | some (pfx, r) => do
      let (scores, n) ← x.conjScores std pfx ⟨r.b + 1, r.e + 1⟩ k s.pool.scores
      x.extract n { s with pool := { s.pool with scores := scores } }

end Index3
end AC
