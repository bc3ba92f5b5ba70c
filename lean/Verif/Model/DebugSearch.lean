import Verif.Model.Autocomplete
import Verif.Model.DebugDict
/-!
# The index types 1, 2 and 3, built with assertions

The functions of Model/Autocomplete.lean, and those that they call, once more with the `assert`s that a build with
`-DCMAKE_BUILD_TYPE=Debug` keeps (CMakeLists.txt:4-12, README.md:77): those of include/parameters.hpp, include/autocomplete.hpp,
include/autocomplete2.hpp, include/autocomplete3.hpp, include/autocomplete_common.hpp, include/scored_string_pool.hpp,
include/completion_trie.hpp, include/inverted_index.hpp, include/compact_forward_index.hpp and include/util_types.hpp, and those of the dictionaries
(Model/DebugDict.lean). A failed assertion is `Fault.aborted`.

Left out are the assertions inside the succinct structures on which these are built: include/bit_vector.hpp, include/compact_vector.hpp,
include/ef, include/succinct_rmq, include/integer_codes.hpp, include/util.hpp, include/building_util.hpp; those of include/probe.hpp, which
measures time; and that of include/min_heap.hpp:69, which is `0 <= size()`.
-/
namespace AC

/-! ## The statistics -/

/-- the assertions of `parameters::load()`, include/parameters.hpp:29-33; the program that builds an index calls it first (src/build.cpp:45) -/
def Files.checkParams (F : Files) : M Unit := do
  check (0 < F.terms.length)
  check (0 < F.maxLen)
  check (0 < F.mapped.length)
  check (F.mapped.length ≤ F.univ)
  check (0 < F.levels)

/-! ## The pool -/

namespace Pool

/-- `size()`, include/scored_string_pool.hpp:26-29 (the assertion: 27) -/
def sizeD (p : Pool) : M Nat := do
  check (0 < p.offsets.length)
  .ok p.size

/-- `operator[](i)`, include/scored_string_pool.hpp:51-58 (the assertion: 52) -/
def getD (p : Pool) (i : Nat) : M (Nat × Str) := do
  let n ← p.sizeD
  check (i < n)
  p.get i

/-- `*it; ++it` repeated, include/scored_string_pool.hpp:60-88 -/
def collectD (p : Pool) : Nat → Nat → M (List (Nat × Str))
  | 0, _ => .ok []
  | n + 1, i => do
      let r ← p.getD i
      let rs ← collectD p n (i + 1)
      .ok (r :: rs)

/-- all the results; see `Pool.results` -/
def resultsD (p : Pool) : M (List (Nat × Str)) := do
  let n ← p.sizeD
  p.collectD n 0

/-- `init()` of the index types, include/autocomplete.hpp:169-173, include/autocomplete2.hpp:178-182, include/autocomplete3.hpp:167-171 (the
assertions: 172, 181, 170) -/
def initD (p : Pool) : M Pool := do
  let n ← p.init.sizeD
  check (n = 0)
  .ok p.init

end Pool

/-- The inner loop of `extract_strings`, include/autocomplete.hpp:207-216, include/autocomplete2.hpp:240-249, include/autocomplete3.hpp:248-257 -/
def writeTermsD (d : FC) (term : Nat → M Nat) : Nat → Nat → Str → Nat → M (Str × Nat)
  | 0, _, data, off => .ok (data, off)
  | n + 1, j, data, off => do
      let t ← term j
      let (data, len) ← FcDict.extractD d t data off
      let (data, off) ← writeSpace (n == 0) data (off + len)
      writeTermsD d term n (j + 1) data off

/-- The loop of `extract_strings`, include/autocomplete.hpp:202-218, include/autocomplete2.hpp:235-251, include/autocomplete3.hpp:243-259 -/
def stringsLoopD (d : FC) (src : Nat → M (Nat × (Nat → M Nat))) : Nat → Nat → Pool → M Pool
  | 0, _, p => .ok p
  | n + 1, i, p => do
      let (size, term) ← src i
      let off ← p.bytes
      let (data, off) ← writeTermsD d term size 0 p.data off
      stringsLoopD d src n (i + 1) { p with data := data, offsets := p.offsets ++ [off] }

/-- `extract_strings(num_completions)`, include/autocomplete.hpp:200-221, include/autocomplete2.hpp:232-254, include/autocomplete3.hpp:240-262 (the
assertions: 219, 252, 260) -/
def extractStringsD (d : FC) (src : Nat → M (Nat × (Nat → M Nat))) (n : Nat) (p : Pool) : M Pool := do
  let p ← stringsLoopD d src n 0 p
  let size ← p.sizeD
  check (size = n)
  .ok p

/-! ## Queries -/

/-- The loop of `parse`, include/autocomplete_common.hpp:17-26 -/
def parseLoopD (d : FC) (must : Bool) : Nat → Str → Ids → Str → M (Bool × Ids × Str × Str)
  | 0, _, _, _ => .error .diverge
  | fuel + 1, r, pfx, buf =>
      match nextToken r with
      | (suffix, []) => .ok (true, pfx, suffix, buf)
      | (suffix, r') => do
          let (id, buf) ← FcDict.locateD d suffix buf
          if id ≠ INVALID_TERM then parseLoopD d must fuel r' (pfx ++ [id]) buf
          else if must then .ok (false, pfx, suffix, buf)
          else parseLoopD d must fuel r' pfx buf

/-- `parse`, include/autocomplete_common.hpp:13-28 -/
def parseD (d : FC) (q : Str) (must : Bool) (buf : Str) : M (Bool × Ids × Str × Str) := parseLoopD d must (q.length + 1) q [] buf

/-- The beginning of `prefix_topk` and of `conjunctive_topk`: include/autocomplete.hpp:38-54 and 71-84, include/autocomplete2.hpp:41-57 and 75-88,
include/autocomplete3.hpp:49-65 and 83-97 (the assertions on `k`: 38, 71; 41, 75; 49, 83) -/
def analyseD (d : FC) (q : Str) (k : Nat) (must : Bool) (s : Scratch) : M (Scratch × Option (Ids × Range)) := do
  check (k ≤ MAX_K)
  let pool ← s.pool.initD
  let (ok, pfx, suffix, dbuf) ← parseD d q must s.dbuf
  if ok then do
    let (r, dbuf) ← FcDict.locatePrefixD d suffix dbuf
    if r.isInvalid then .ok ({ s with pool := pool, dbuf := dbuf }, none)
    else .ok ({ s with pool := pool, dbuf := dbuf }, some (pfx, r))
  else .ok ({ s with pool := pool, dbuf := dbuf }, none)

/-! ## Inverted index -/

/-- `iterator(term_id)`, include/inverted_index.hpp:98-105 (the assertion: 99) -/
def InvIdx.iteratorD (ii : InvIdx) (term : Nat) : M CEI := do
  check (term < ii.numTerms)
  ii.iterator term

/-- `iterator(id - 1)`, include/autocomplete_common.hpp:48-50, include/autocomplete.hpp:178, include/autocomplete2.hpp:200,
include/autocomplete3.hpp:193 and 208-210: the number 0 - 1 is 2^32 - 1, which is beyond the terms -/
def InvIdx.iteratorOfD (ii : InvIdx) (id : Nat) : M CEI := ii.iteratorD (if id = 0 then 2 ^ 32 - 1 else id - 1)

namespace Inter

/-- the iterators of the terms, include/inverted_index.hpp:138-141 (the assertion: 139) -/
def iteratorsD (ii : InvIdx) : List Nat → M (List CEI)
  | [] => .ok []
  | id :: ids => do
      check (0 < id)
      let it ← ii.iteratorOfD id
      let its ← iteratorsD ii ids
      .ok (it :: its)

/-- `intersection_iterator_type(ii, term_ids)`, include/inverted_index.hpp:134-152 (the assertion: 136) -/
def mkD (std : StdLib) (ii : InvIdx) (ids : List Nat) : M Inter := do
  check (1 < ids.length)
  let its ← iteratorsD ii ids
  let its := std.sort (fun it : CEI => it.off.n) its
  let it ← rd its 0
  let it ← it.access ii.data 0
  let its ← wr its 0 it
  next ii ⟨id32 it.value, 1, its⟩

/-- `operator++`, include/inverted_index.hpp:162-167 (the assertion: 163) -/
def incD (ii : InvIdx) (s : Inter) : M Inter := do
  check (s.i = s.its.length)
  s.inc ii

end Inter

/-- `intersection_iterator_type`, include/inverted_index.hpp:154-167 -/
def DocIter.interD (ii : InvIdx) : DocIter Inter := ⟨Inter.hasNext ii, Inter.candidate, Inter.incD ii⟩

/-- `conjunctive_topk(prefix, suffix, k)`, include/autocomplete.hpp:175-184, include/autocomplete2.hpp:196-205, include/autocomplete3.hpp:191-198 -/
def withDocsD {β : Type} (std : StdLib) (ii : InvIdx) (pfx : Ids) (run : {σ : Type} → DocIter σ → σ → M β) : M β :=
  let c := deduplicate std pfx
  if c.length = 1 then do
    let t ← rd c 0
    let it ← ii.iteratorOfD t
    run (DocIter.list ii) it
  else do
    let it ← Inter.mkD std ii c
    run (DocIter.interD ii) it

namespace HeapTopK

/-- the loop that fills the queue, include/autocomplete_common.hpp:48-50, include/autocomplete3.hpp:208-210 -/
def fillD (ii : InvIdx) : Nat → Nat → M (List CEI)
  | 0, _ => .ok []
  | n + 1, term => do
      let it ← ii.iteratorOfD term
      let q ← fillD ii n (term + 1)
      .ok (it :: q)

/-- the two assertions on the range of terms, include/autocomplete_common.hpp:39 and 47, include/autocomplete3.hpp:202 and 207, and the loop;
`is_valid()`: include/util_types.hpp:52-54 -/
def startD (ii : InvIdx) (begin end' : Nat) : M (List CEI) := do
  check (Range.isInvalid ⟨begin, end'⟩ = false)
  check (0 < begin)
  fillD ii (end' + 1 - begin) begin

/-- `heap_topk(index, r, k, topk_scores)`, include/autocomplete_common.hpp:36-70 -/
def topkD (std : StdLib) (ii : InvIdx) (begin end' k : Nat) (buf : List Nat) : M (List Nat × Nat) := do
  let q ← startD ii begin end'
  Union.loop std CEI.value (advance std ii) k (ii.numIntegers + 1) (Heap.makeHeap std CEI.value q) buf 0

end HeapTopK

namespace MinDocs

/-- the rest of the body of the loop, include/minimal_docids.hpp:48-90, with `set_iterator`, include/util_types.hpp:88-93 (the assertion: 90) -/
def advanceD (std : StdLib) (ii : InvIdx) (u : UL) (q : List RI) : M (List RI) := do
  let min ← Heap.top q
  match min.it with
  | some it => do
      let it ← it.next ii.data
      let q ← wr q 0 ⟨min.sr, some it⟩
      let q ← Union.popUnless std key it.hasNext q
      Heap.heapify key q
  | none => do
      check (min.sr.pos ≠ INVALID_TERM)
      let it ← ii.iteratorD min.sr.pos
      let it ← it.next ii.data
      let q ← wr q 0 ⟨min.sr, some it⟩
      let q ← Union.popUnless std key it.hasNext q
      let q ← Heap.heapify key q
      let q ← UL.pushLeft std key closed u min.sr.lo min.sr.pos q
      UL.pushRight std key closed u min.sr.pos min.sr.hi q

/-- `topk(index, r, k, topk_scores)`, include/minimal_docids.hpp:27-94 -/
def topkD (std : StdLib) (ii : InvIdx) (u : UL) (begin end' k : Nat) (buf : List Nat) : M (List Nat × Nat) := do
  let pos ← CT.rmq u.rmq begin (end' - 1)
  let val ← u.access pos
  Union.loop std key (advanceD std ii u) k (ii.numIntegers + 1)
    (Heap.push std key [] (closed ⟨begin, end' - 1, pos, val⟩)) buf 0

end MinDocs

/-! ## Trie and forward index -/

/-- `locate_prefix`, include/completion_trie.hpp:171-200 (the assertions: 185, 187, 198); the assertion at the end fails when the trie has too few levels -/
def Trie.locatePrefixD (T : List Trie.CLevel) (pfx : Ids) (lex : Range) : M Range := do
  let t0 ← rd T 0
  match ← Trie.descend T 0 ⟨0, t0.nodes.size⟩ pfx with
  | none => .ok Range.invalid
  | some (i, r) =>
      match T[i]? with
      | none => .error .aborted
      | some t => do
          let q ← t.nodes.seq.findRange r lex
          check (q.b ≤ q.e)
          if q.b = q.e then .ok Range.invalid
          else do
            check (q.b < q.e)
            let r ← Trie.extent t q
            check (r.isInvalid = false)
            .ok r

namespace FwdIdx

/-- the assertions of the loop over the documents of the builder, include/compact_forward_index.hpp:26-39 (29 and 35) -/
def checkLists : List (List Nat) → M Unit
  | [] => .ok ()
  | l :: ls => do
      check (l.length < MAX_TERMS)
      check (∀ x ∈ l, 0 < x)
      checkLists ls

/-- `builder(params)` and `build`, include/compact_forward_index.hpp:13-59 -/
def buildD (numTerms : Nat) (lists : List (List Nat)) (after : W) : M FwdIdx := do
  checkLists lists
  build numTerms lists after

/-- `iterator(doc_id)`, include/compact_forward_index.hpp:106-111 (the assertion: 107) -/
def iteratorD (fi : FwdIdx) (doc : Nat) : M FwdIt := do
  check (doc < fi.numDocs)
  fi.iterator doc

end FwdIdx

/-- the loop of `intersects`, include/compact_forward_index.hpp:90-97 (the assertion: 93) -/
def FwdIt.intersectsLoopD (fi : FwdIdx) (it : FwdIt) (r : Range) : Nat → Nat → M Bool
  | 0, _ => .ok false
  | k + 1, i => do
      let v ← fi.data.get (it.base + i)
      check (0 < v.toNat)
      if r.contains v.toNat then .ok true else it.intersectsLoopD fi r k (i + 1)

/-- `intersects(doc_id, r)`, include/compact_forward_index.hpp:113-115 -/
def FwdIdx.intersectsD (fi : FwdIdx) (doc : Nat) (r : Range) : M Bool := do
  let it ← fi.iteratorD doc
  it.intersectsLoopD fi r it.n 0

/-! ## Type 1 -/

namespace Index1

/-- `autocomplete(params)`, include/autocomplete.hpp:19-33, after `params.load()` -/
def buildD (F : Files) (mem : Nat → W) : M Index1 := do
  F.checkParams
  let ib ← InvBuilder.mk' F.univ F.inverted
  let docs ← UL.build (F.mapped.map (·.1)) (mem 0) (mem 1)
  let minimal ← UL.build ib.minimal (mem 2) (mem 3)
  let completions ← Trie.build F.levels (F.mapped.map (·.2))
  let dict ← FcDict.buildD F.terms
  let inverted ← ib.build (mem 4)
  let forward ← FwdIdx.buildD F.terms.length F.forward (mem 5)
  .ok ⟨completions, docs, minimal, dict, inverted, forward, F.mapped.length⟩

/-- how `extract_strings` reads the terms of the `i`-th result, include/autocomplete.hpp:203-208 -/
def sourceD (x : Index1) (scores : List Nat) (i : Nat) : M (Nat × (Nat → M Nat)) := do
  let doc ← rd scores i
  let it ← x.forward.iteratorD doc
  .ok (it.n, fun j => FwdIt.deref x.forward { it with i := j })

/-- `extract_strings(num_completions)`, include/autocomplete.hpp:200-221 -/
def extractD (x : Index1) (n : Nat) (s : Scratch) : M Scratch := do
  let pool ← extractStringsD x.dict (x.sourceD s.pool.scores) n s.pool
  .ok { s with pool := pool }

/-- `prefix_topk(query, k)`, include/autocomplete.hpp:35-66 -/
def prefixTopkD (std : StdLib) (x : Index1) (q : Str) (k : Nat) (s : Scratch) : M Scratch := do
  let (s, a) ← analyseD x.dict q k true s
  match a with
  | none => .ok s
  | some (pfx, r) => do
      let r ← Trie.locatePrefixD x.completions pfx ⟨r.b + 1, r.e + 1⟩
      if r.isInvalid then .ok s
      else do
        let (scores, n) ← UL.topk std x.docs r.b r.e k false s.pool.scores
        x.extractD n { s with pool := { s.pool with scores := scores } }

/-- the loop of `conjunctive_topk(it, r, k)`, include/autocomplete.hpp:186-198 -/
def conjLoopD {σ : Type} (x : Index1) (I : DocIter σ) (r : Range) (k : Nat) : Nat → σ → List Nat → Nat → M (List Nat × Nat)
  | 0, _, _, _ => .error .diverge
  | fuel + 1, it, scores, n =>
      if I.hasNext it then do
        let found ← x.forward.intersectsD (I.value it) r
        if found then do
          let scores ← wr scores n (I.value it)
          if n + 1 = k then .ok (scores, n + 1)
          else do
            let it ← I.next it
            conjLoopD x I r k fuel it scores (n + 1)
        else do
          let it ← I.next it
          conjLoopD x I r k fuel it scores n
      else .ok (scores, n)

/-- the two cases, include/autocomplete.hpp:85-95 -/
def conjScoresD (std : StdLib) (x : Index1) (pfx : Ids) (r : Range) (k : Nat) (scores : List Nat) : M (List Nat × Nat) :=
  if pfx.length = 0 then MinDocs.topkD std x.inverted x.minimal r.b (r.e + 1) k scores
  else withDocsD std x.inverted pfx fun I it =>
    x.conjLoopD I ⟨r.b + 1, r.e + 1⟩ k (x.inverted.numDocs + 1) it scores 0

/-- `conjunctive_topk(query, k)`, include/autocomplete.hpp:68-101 -/
def conjTopkD (std : StdLib) (x : Index1) (q : Str) (k : Nat) (s : Scratch) : M Scratch := do
  let (s, a) ← analyseD x.dict q k false s
  match a with
  | none => .ok s
  | some (pfx, r) => do
      let (scores, n) ← x.conjScoresD std pfx r k s.pool.scores
      x.extractD n { s with pool := { s.pool with scores := scores } }

end Index1

/-! ## Types 2 and 3 -/

namespace Base

/-- the part of the constructors about these members, include/autocomplete2.hpp:22-36, include/autocomplete3.hpp:31-44 -/
def buildD (F : Files) (mem : Nat → W) : M Base := do
  let (completions, docToLex) ← IntDict.buildD F.univ F.mapped
  let lexids ← CV.build (toWords docToLex) (ceilLog2 (F.mapped.length + 1)) (mem 6)
  let docs ← UL.build (invert docToLex F.mapped.length) (mem 0) (mem 1)
  let dict ← FcDict.buildD F.terms
  .ok ⟨completions, docs, dict, lexids⟩

/-- `m_completions.extract(m_docid_to_lexid[doc_id], completions[i])`, include/autocomplete2.hpp:190-191 and 217-218,
include/autocomplete3.hpp:179-180 -/
def loadD (x : Base) (doc i : Nat) (compl : List Ids) : M (List Ids × Nat) := do
  let lex ← x.lexids.get doc
  let row ← rd compl i
  let (row, size) ← IntDict.extractD x.completions lex.toNat row
  let compl ← wr compl i row
  .ok (compl, size)

/-- `extract_completions(num_completions)`, include/autocomplete2.hpp:184-194, include/autocomplete3.hpp:173-183 -/
def extractCompletionsD (x : Base) (scores : List Nat) : Nat → Nat → List Ids → List Nat → M (List Ids × List Nat)
  | 0, _, compl, sizes => .ok (compl, sizes)
  | n + 1, i, compl, sizes => do
      let doc ← rd scores i
      let (compl, size) ← x.loadD doc i compl
      let sizes ← wr sizes i size
      extractCompletionsD x scores n (i + 1) compl sizes

/-- `extract_strings(num_completions)`, include/autocomplete2.hpp:232-254, include/autocomplete3.hpp:240-262 -/
def stringsD (x : Base) (n : Nat) (s : Scratch) : M Scratch := do
  let pool ← extractStringsD x.dict (source s.compl s.sizes) n s.pool
  .ok { s with pool := pool }

/-- `extract_completions(n); extract_strings(n);` -/
def extractD (x : Base) (n : Nat) (s : Scratch) : M Scratch := do
  let (compl, sizes) ← x.extractCompletionsD s.pool.scores n 0 s.compl s.sizes
  x.stringsD n { s with compl := compl, sizes := sizes }

/-- `prefix_topk(query, k)`, include/autocomplete2.hpp:38-70, include/autocomplete3.hpp:46-78 -/
def prefixTopkD (std : StdLib) (x : Base) (q : Str) (k : Nat) (s : Scratch) : M Scratch := do
  let (s, a) ← analyseD x.dict q k true s
  match a with
  | none => .ok s
  | some (pfx, r) => do
      let (r, _, cbuf) ← IntDict.locatePrefixD x.completions pfx ⟨r.b + 1, r.e + 1⟩ s.cbuf
      if r.isInvalid then .ok { s with cbuf := cbuf }
      else do
        let (scores, n) ← UL.topk std x.docs r.b r.e k false s.pool.scores
        x.extractD n { s with cbuf := cbuf, pool := { s.pool with scores := scores } }

end Base

namespace Index2

/-- `autocomplete2(params)`, include/autocomplete2.hpp:22-36, after `params.load()` -/
def buildD (F : Files) (mem : Nat → W) : M Index2 := do
  F.checkParams
  let ib ← InvBuilder.mk' F.univ F.inverted
  let base ← Base.buildD F mem
  let minimal ← UL.build ib.minimal (mem 2) (mem 3)
  let inverted ← ib.build (mem 4)
  .ok ⟨base, minimal, inverted⟩

/-- the loop of `conjunctive_topk(it, r, k)`, include/autocomplete2.hpp:207-230 -/
def conjLoopD {σ : Type} (x : Index2) (I : DocIter σ) (r : Range) (k : Nat) :
    Nat → σ → List Nat → List Ids → List Nat → Nat → M (List Nat × List Ids × List Nat × Nat)
  | 0, _, _, _, _, _ => .error .diverge
  | fuel + 1, it, scores, compl, sizes, i =>
      if I.hasNext it then do
        let (compl, size) ← x.loadD (I.value it) i compl
        let row ← rd compl i
        let found ← anyTerm r row size 0
        if found then do
          let scores ← wr scores i (I.value it)
          let sizes ← wr sizes i size
          if i + 1 = k then .ok (scores, compl, sizes, i + 1)
          else do
            let it ← I.next it
            conjLoopD x I r k fuel it scores compl sizes (i + 1)
        else do
          let it ← I.next it
          conjLoopD x I r k fuel it scores compl sizes i
      else .ok (scores, compl, sizes, i)

/-- `conjunctive_topk(query, k)`, include/autocomplete2.hpp:72-106 -/
def conjTopkD (std : StdLib) (x : Index2) (q : Str) (k : Nat) (s : Scratch) : M Scratch := do
  let (s, a) ← analyseD x.dict q k false s
  match a with
  | none => .ok s
  | some (pfx, r) =>
      if pfx.length = 0 then do
        let (scores, n) ← MinDocs.topkD std x.inverted x.minimal r.b (r.e + 1) k s.pool.scores
        x.extractD n { s with pool := { s.pool with scores := scores } }
      else do
        let (scores, compl, sizes, n) ← withDocsD std x.inverted pfx fun I it =>
          x.conjLoopD I ⟨r.b + 1, r.e + 1⟩ k (x.inverted.numDocs + 1) it s.pool.scores s.compl s.sizes 0
        x.stringsD n { s with pool := { s.pool with scores := scores }, compl := compl, sizes := sizes }

end Index2

namespace Index3

/-- `autocomplete3(params)`, include/autocomplete3.hpp:31-44, after `params.load()` -/
def buildD (F : Files) (mem : Nat → W) : M Index3 := do
  F.checkParams
  let ib ← InvBuilder.mk' F.univ F.inverted
  let base ← Base.buildD F mem
  let inverted ← ib.build (mem 4)
  .ok ⟨base, inverted⟩

/-- `conjunctive_topk(it, r, k)`, include/autocomplete3.hpp:200-238; the loop of 213-237 has no assertions -/
def conjScanD {σ : Type} (std : StdLib) (x : Index3) (I : DocIter σ) (it : σ) (r : Range) (k : Nat) (scores : List Nat) :
    M (List Nat × Nat) := do
  let q ← HeapTopK.startD x.inverted r.b r.e
  conjLoop std x I k (x.inverted.numDocs + 1) it (Heap.makeHeap std CEI.value q) scores 0

/-- `conjunctive_topk(prefix, suffix_lex_range, k)`, include/autocomplete3.hpp:185-198 -/
def conjScoresD (std : StdLib) (x : Index3) (pfx : Ids) (r : Range) (k : Nat) (scores : List Nat) : M (List Nat × Nat) :=
  if pfx.length = 0 then HeapTopK.topkD std x.inverted r.b r.e k scores
  else withDocsD std x.inverted pfx fun I it => x.conjScanD std I it r k scores

/-- `conjunctive_topk(query, k)`, include/autocomplete3.hpp:80-108 -/
def conjTopkD (std : StdLib) (x : Index3) (q : Str) (k : Nat) (s : Scratch) : M Scratch := do
  let (s, a) ← analyseD x.dict q k false s
  match a with
  | none => .ok s
  | some (pfx, r) => do
      let (scores, n) ← x.conjScoresD std pfx ⟨r.b + 1, r.e + 1⟩ k s.pool.scores
      x.extractD n { s with pool := { s.pool with scores := scores } }

end Index3
end AC
