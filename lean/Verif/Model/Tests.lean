import Verif.Model.FcDictionary
import Verif.Model.IntDictionary
import Verif.Model.Trie
import Verif.Model.ForwardIndex
import Verif.Model.BlockedIndex
import Verif.Model.BlockSize
import Verif.Model.UnsortedList
/-!
# The tests of the repository: test/test_fc_dictionary.cpp, test/test_integer_fc_dictionary.cpp, test/test_completion_trie.cpp,
test/test_inverted_index.cpp, test/test_blocked_inverted_index.cpp, test/test_compact_forward_index.cpp, test/test_unsorted_list.cpp

A test returns `true` when all its `REQUIRE` hold, and `false` when one does not: the test ends there. The collection is a
parameter: the programs read the one in test_data. That a structure is saved and loaded between its construction and its use is
left out, see C33. Messages are left out.
-/
namespace AC.Tests

/-! ## test/test_common.hpp -/

/-- `std::lower_bound` and `std::upper_bound` (test/test_common.hpp:22-23, :46, :49), as in the libraries in use: `n` elements from
`first` are left. `before` tells whether an element comes before the point that is looked for; for `upper_bound` it is the
negation of the comparator. -/
def bisect {α : Type} (before : α → Bool) (l : List α) : Nat → Nat → Nat → M Nat
  | 0, _, _ => .error .diverge
  | fuel + 1, first, n =>
      if n = 0 then .ok first
      else do
        let x ← rd l (first + n / 2)
        if before x then bisect before l fuel (first + n / 2 + 1) (n - n / 2 - 1)
        else bisect before l fuel first (n / 2)

/-- the distance from the beginning to the point -/
def partitionPoint {α : Type} (before : α → Bool) (l : List α) : M Nat := bisect before l (l.length + 1) 0 l.length

/-- `testing::locate`, test/test_common.hpp:21-25 -/
def locate (terms : List Str) (t : Str) : M Nat := do
  let i ← partitionPoint (fun s => decide (s < t)) terms
  .ok (i + 1)

/-- `strcmp`, on the bytes up to and with the NUL -/
def strcmp (l r : Str) : Int := strncmp (min l.length r.length + 1) (l ++ [0]) (r ++ [0])

/-- `comp_l`, test/test_common.hpp:29-34 -/
def compL (l r : Str) : Bool :=
  if l.length < r.length then decide (strncmp l.length l r ≤ 0) else decide (strcmp l r < 0)

/-- `comp_r`, test/test_common.hpp:36-41 -/
def compR (l r : Str) : Bool :=
  if l.length < r.length then decide (strncmp l.length l r < 0) else decide (strcmp l r < 0)

/-- `testing::locate_prefix`, test/test_common.hpp:27-52 -/
def locatePrefix (strings : List Str) (p : Str) : M Range := do
  let b ← partitionPoint (fun s => compL s p) strings
  let e ← partitionPoint (fun s => !compR p s) strings
  .ok ⟨b, e⟩

/-- `std::unique` (test/test_common.hpp:76, test/test_unsorted_list.cpp:14): what is left, of equal neighbours one -/
def unique : List Nat → List Nat
  | [] => []
  | [x] => [x]
  | x :: y :: l => if x = y then unique (y :: l) else x :: unique (y :: l)

/-- The loop of `testing::gen_random_queries` that draws the terms of a query, test/test_common.hpp:70-79: `draw i` are the numbers
drawn in the `i`-th round -/
def genQuery (std : StdLib) (draw : Nat → List Nat) : Nat → Nat → M Ids
  | 0, _ => .error .diverge
  | fuel + 1, i =>
      let q := unique (std.sort id (draw i))
      if 2 ≤ q.length then .ok q else genQuery std draw fuel (i + 1)

/-- `testing::gen_random_queries`, test/test_common.hpp:56-85 -/
def genQueries (std : StdLib) (fuel : Nat) : List (Nat → List Nat) → M (List Ids)
  | [] => .ok []
  | draw :: draws => do
      let q ← genQuery std draw fuel 0
      let qs ← genQueries std fuel draws
      .ok (q :: qs)

/-! ## test/test_fc_dictionary.cpp -/

/-- the loop over all terms, test/test_fc_dictionary.cpp:41-60. The length is a `uint8_t`. The loop over the characters is a
comparison of lists. -/
def termsOk (d : FC) (terms : List Str) : List Str → Str → Str → M (Bool × Str)
  | [], buf, _ => .ok (true, buf)
  | t :: ts, buf, dec => do
      let expected ← locate terms t
      let (got, buf) ← FcDict.locate d t buf
      if got ≠ expected then .ok (false, buf)
      else do
        let (dec, n) ← FcDict.extract d got dec 0
        let n := n % 256
        if n ≠ t.length then .ok (false, buf)
        else if dec.take n ≠ t then .ok (false, buf)
        else termsOk d terms ts buf dec

/-- the prefixes of a term, test/test_fc_dictionary.cpp:66-71 -/
def prefixes (t : Str) : List Str := (List.range t.length).map fun i => t.take (i + 1)

/-- The loop over all prefixes, test/test_fc_dictionary.cpp:65-83; `expected.end - 1` is a 64-bit number -/
def prefixesOk (d : FC) (terms : List Str) : List Str → Str → M Bool
  | [], _ => .ok true
  | p :: ps, buf => do
      let expected ← locatePrefix terms p
      let (got, buf) ← FcDict.locatePrefix d p buf
      if got.b = expected.b ∧ got.e = (if expected.e = 0 then 2 ^ 64 - 1 else expected.e - 1) then prefixesOk d terms ps buf
      else .ok false

/-- test/test_fc_dictionary.cpp:5-86. Each static array of the dictionary is filled with zeros at first. -/
def terms (L : List Str) : M Bool := do
  let d ← FcDict.build L
  let (ok, buf) ← termsOk d L L (List.replicate FcDict.bufSize 0) (List.replicate (2 * MAX_CHARS) 0)
  if ok then prefixesOk d L (L.flatMap prefixes) buf else .ok false

/-! ## test/test_integer_fc_dictionary.cpp -/

/-- The loop, test/test_integer_fc_dictionary.cpp:29-57, from completion `id` on. The completions of the file end with 0, so that they
are not empty. -/
def idsOk (d : FC) : List Ids → Nat → Ids → Ids → M Bool
  | [], _, _, _ => .ok true
  | c :: cs, id, buf, dec => do
      let (dec, n) ← IntDict.extract d id dec
      let n := n % 256
      if c.length ≠ n then .ok false
      else if dec.take n ≠ c then .ok false
      else do
        let (got, buf) ← IntDict.locate d (dec.take n) buf
        if got = INVALID_TERM then .ok false
        else if got ≠ id then .ok false
        else idsOk d cs (id + 1) buf dec

/-- test/test_integer_fc_dictionary.cpp:5-63 -/
def completions (univ : Nat) (rs : List (Nat × Ids)) : M Bool := do
  let (d, _) ← IntDict.build univ rs
  idsOk d (rs.map Prod.snd) 0 (List.replicate IntDict.bufSize 0) (List.replicate (2 * MAX_TERMS) 0)

/-! ## test/test_completion_trie.cpp -/

/-- the loop over the completions, test/test_completion_trie.cpp:29-33 -/
def membersOk (T : List Trie.CLevel) : List Ids → M Bool
  | [] => .ok true
  | c :: cs => do
      let m ← Trie.isMember T (c ++ [0])
      if m then membersOk T cs else .ok false

/-- test/test_completion_trie.cpp:7-37. The size of the trie is the number of completions of the parameters
(include/completion_trie.hpp:15). -/
def trie (levels : Nat) (L : List Ids) : M Bool := do
  let T ← Trie.build levels L
  membersOk T L

/-! ## test/test_inverted_index.cpp -/

/-- the loop over a list, test/test_inverted_index.cpp:37-43: `*it` is the value, a 64-bit number that is compared with the expected one -/
def listOk (ii : InvIdx) : List Nat → CEI → M Bool
  | [], _ => .ok true
  | x :: xs, it => do
      if it.value ≠ x then .ok false
      else do
        let it ← it.next ii.data
        listOk ii xs it

/-- the loop over the lists, test/test_inverted_index.cpp:30-44 -/
def listsOk (ii : InvIdx) : List (List Nat) → Nat → M Bool
  | [], _ => .ok true
  | l :: ls, t => do
      let it ← ii.iterator t
      if l.length ≠ it.off.n then .ok false
      else do
        let ok ← listOk ii l it
        if ok then listsOk ii ls (t + 1) else .ok false

/-- test/test_inverted_index.cpp:7-49; `lists` are the lists of the file, one for each term -/
def inverted (u : Nat) (lists : List (List Nat)) (after : W) : M Bool := do
  let b ← InvBuilder.mk' u lists
  let ii ← b.build after
  if ii.numDocs ≠ u ∨ ii.numTerms ≠ lists.length then .ok false
  else listsOk ii lists 0

/-- `v[i] = it.access(i)` for `n` values of `i`, test/test_inverted_index.cpp:89-91, :97-99, :111-113 -/
def fill (ii : InvIdx) : Nat → Nat → CEI → List Nat → M (List Nat)
  | 0, _, _, v => .ok v
  | n + 1, i, it, v => do
      let it ← it.access ii.data i
      let v ← wr v i (id32 it.value)
      fill ii n (i + 1) it v

/-- The list of a term in the vector `v`, test/test_inverted_index.cpp:86-92, :94-100, :109-113: the size and the vector -/
def loadList (ii : InvIdx) (id : Nat) (v : List Nat) : M (Nat × List Nat) := do
  let it ← ii.iteratorOf id
  let v ← fill ii it.off.n 0 it v
  .ok (it.off.n, v)

/-- `std::set_intersection` of two increasing ranges, test/test_inverted_index.cpp:102-105, :114-117, written to the vector `v`, and the
number of elements written -/
def intersectInto (a b v : List Nat) : M (Nat × List Nat) :=
  let r := a.filter (b.contains ·)
  if r.length ≤ v.length then .ok (r.length, r ++ v.drop r.length) else .error .oob

/-- the loop over the other terms, test/test_inverted_index.cpp:108-119, with the vectors `first`, `second` and `intersection` -/
def others (ii : InvIdx) : List Nat → Nat → List Nat → List Nat → List Nat → M (Nat × List Nat × List Nat × List Nat)
  | [], n, first, second, inter => .ok (n, first, second, inter)
  | id :: ids, n, first, second, inter => do
      let (m, second) ← loadList ii id second
      let (n, inter) ← intersectInto (first.take n) (second.take m) inter
      others ii ids n inter second first

/-- The loop over the intersection, test/test_inverted_index.cpp:121-128; `n` documents have been seen. The result is the number of
documents, or none if one was wrong. -/
def enumOk (ii : InvIdx) (first : List Nat) : Nat → Nat → Inter → M (Option Nat)
  | 0, _, _ => .error .diverge
  | fuel + 1, n, s =>
      if s.hasNext ii then do
        let x ← rd first n
        if s.candidate ≠ x then .ok none
        else do
          let s ← s.inc ii
          enumOk ii first fuel (n + 1) s
      else .ok (some n)

/-- the body of the loop over the queries, test/test_inverted_index.cpp:81-131: the outcome and the three vectors -/
def queryOk (std : StdLib) (ii : InvIdx) : Ids → List Nat → List Nat → List Nat → M (Bool × List Nat × List Nat × List Nat)
  | id1 :: id2 :: ids, first, second, inter => do
      let (n, first) ← loadList ii id1 first
      let (m, second) ← loadList ii id2 second
      let (n, inter) ← intersectInto (first.take n) (second.take m) inter
      let (n, first, second, inter) ← others ii ids n inter second first
      let s ← Inter.mk' std ii (id1 :: id2 :: ids)
      let r ← enumOk ii first (ii.numDocs + 1) 0 s
      .ok (r = some n, first, second, inter)
  | _, _, _, _ => .error .oob

/-- the loop over the queries, test/test_inverted_index.cpp:81-132 -/
def queriesOk (std : StdLib) (ii : InvIdx) : List Ids → List Nat → List Nat → List Nat → M Bool
  | [], _, _, _ => .ok true
  | q :: qs, first, second, inter => do
      let (ok, first, second, inter) ← queryOk std ii q first second inter
      if ok then queriesOk std ii qs first second inter else .ok false

/-- test/test_inverted_index.cpp:51-135; `draws` are the numbers drawn for the queries, each of which takes at most `fuel` rounds -/
def intersections (std : StdLib) (fuel u : Nat) (lists : List (List Nat)) (after : W) (draws : List (Nat → List Nat)) : M Bool := do
  let b ← InvBuilder.mk' u lists
  let ii ← b.build after
  if ii.numDocs ≠ u ∨ ii.numTerms ≠ lists.length then .ok false
  else do
    let qs ← genQueries std fuel draws
    let v := List.replicate ii.numDocs 0
    queriesOk std ii qs v v v

/-! ## test/test_blocked_inverted_index.cpp -/

/-- the loop over the two intersections, test/test_blocked_inverted_index.cpp:48-57 -/
def sameOk (ii : InvIdx) (bi : BlkIdx) : Nat → Inter → BInter → M Bool
  | 0, _, _ => .error .diverge
  | fuel + 1, s, b =>
      if s.hasNext ii then
        if b.candidate ≠ s.candidate then .ok false
        else do
          let s ← s.inc ii
          let b ← b.inc bi
          sameOk ii bi fuel s b
      else .ok (b.hasNext bi = false)

/-- the loop over the queries, test/test_blocked_inverted_index.cpp:43-58 -/
def sameQueriesOk (std : StdLib) (ii : InvIdx) (bi : BlkIdx) : List Ids → M Bool
  | [] => .ok true
  | q :: qs => do
      let s ← Inter.mk' std ii q
      let b ← BInter.mk' std bi q
      let ok ← sameOk ii bi (ii.numDocs + 1) s b
      if ok then sameQueriesOk std ii bi qs else .ok false

/-- the loop over the sizes of the blocks, test/test_blocked_inverted_index.cpp:32-61; `mem` is the memory that follows the buffers -/
def sizesOk (std : StdLib) (u : Nat) (lists : List (List Nat)) (ii : InvIdx) (qs : List Ids) (mem : Nat → W) : List Nat → M Bool
  | [] => .ok true
  | c :: cs => do
      let m ← blockSize u c
      let b ← BlkBuilder.mk' std m u lists
      let bi ← b.build mem
      if bi.numDocs ≠ u ∨ bi.numTerms ≠ lists.length then .ok false
      else do
        let ok ← sameQueriesOk std ii bi qs
        if ok then sizesOk std u lists ii qs mem cs else .ok false

/-- the numbers of test/test_blocked_inverted_index.cpp:28 as `float` numbers, multiples of `2^-149` -/
def cs : List Nat := [13421773 * 2 ^ 119, 13421773 * 2 ^ 120, 13421773 * 2 ^ 121, 13421773 * 2 ^ 122]

/-- test/test_blocked_inverted_index.cpp:8-63 -/
def blocked (std : StdLib) (fuel u : Nat) (lists : List (List Nat)) (after : W) (mem : Nat → W) (draws : List (Nat → List Nat)) : M Bool := do
  let b ← InvBuilder.mk' u lists
  let ii ← b.build after
  if ii.numDocs ≠ u ∨ ii.numTerms ≠ lists.length then .ok false
  else do
    let qs ← genQueries std fuel draws
    sizesOk std u lists ii qs mem cs

/-! ## test/test_compact_forward_index.cpp -/

/-- the loop over a list, test/test_compact_forward_index.cpp:35-41 -/
def docOk (fi : FwdIdx) : List Nat → FwdIt → M Bool
  | [], _ => .ok true
  | x :: xs, it => do
      let got ← it.deref fi
      if got ≠ x then .ok false else docOk fi xs it.inc

/-- The loop over the lists, test/test_compact_forward_index.cpp:28-42, from list `i`, with as many iterations left as there are
terms. After the end of the file the length read is 0. -/
def docsOk (fi : FwdIdx) (lists : List (List Nat)) : Nat → Nat → M Bool
  | 0, _ => .ok true
  | k + 1, i => do
      let it ← fi.iterator i
      let l := lists.getD i []
      if l.length ≠ it.n then .ok false
      else do
        let ok ← docOk fi l it
        if ok then docsOk fi lists k (i + 1) else .ok false

/-- the part that uses the index, test/test_compact_forward_index.cpp:20-47; `lists` are the lists of the file, one for each document of the universe -/
def forwardOk (fi : FwdIdx) (numTerms : Nat) (lists : List (List Nat)) : M Bool :=
  if fi.numDocs ≠ lists.length ∨ fi.numTerms ≠ numTerms then .ok false else docsOk fi lists fi.numTerms 0

/-- test/test_compact_forward_index.cpp:5-47 -/
def forward (numTerms : Nat) (lists : List (List Nat)) (after : W) : M Bool := do
  let fi ← FwdIdx.build numTerms lists after
  forwardOk fi numTerms lists

/-! ## test/test_unsorted_list.cpp -/

/-- `topk[i] = input[r.begin + i]`, test/test_unsorted_list.cpp:8-10, with `n` iterations left -/
def copyInto (input : List Nat) (b : Nat) : Nat → Nat → List Nat → M (List Nat)
  | 0, _, v => .ok v
  | n + 1, i, v => do
      let x ← rd input (b + i)
      let v ← wr v i x
      copyInto input b n (i + 1) v

/-- `naive_topk`, test/test_unsorted_list.cpp:5-20: the number of results and the vector `topk`. What `std::unique` leaves after the end
is not specified: here the vector keeps what it had. -/
def naiveTopk (std : StdLib) (input : List Nat) (b e k : Nat) (uniq : Bool) (v : List Nat) : M (Nat × List Nat) := do
  let len := e - b
  let v ← copyInto input b len 0 v
  let s := std.sort id (v.take len)
  if uniq then .ok (min k (unique s).length, unique s ++ v.drop (unique s).length)
  else .ok (min k len, s ++ v.drop len)

/-- the loop over the results, test/test_unsorted_list.cpp:98-102 and :163-167, with `n` iterations left -/
def valuesOk (topk expected : List Nat) : Nat → Nat → M Bool
  | 0, _ => .ok true
  | n + 1, i => do
      let x ← rd topk i
      let y ← rd expected i
      if x ≠ y then .ok false else valuesOk topk expected n (i + 1)

/-- `static const uint32_t k = 10`, test/test_unsorted_list.cpp:47, :115 -/
def k : Nat := 10

/-- the loop over the ranges, test/test_unsorted_list.cpp:91-103, :155-168 -/
def rangesOk (std : StdLib) (u : UL) (v : List Nat) (uniq : Bool) : List (Nat × Nat) → List Nat → List Nat → M Bool
  | [], _, _ => .ok true
  | (b, e) :: qs, topk, expected => do
      let (n, expected) ← naiveTopk std v b e k uniq expected
      let (topk, r) ← UL.topk std u b e k uniq topk
      if n ≠ r then .ok false
      else do
        let ok ← valuesOk topk expected r 0
        if ok then rangesOk std u v uniq qs topk expected else .ok false

/-- `gen_random_queries`, test/test_unsorted_list.cpp:22-39, from the pairs of numbers drawn -/
def genRanges (draws : List (Nat × Nat)) : List (Nat × Nat) := draws.map fun (x, y) => if y > x then (x, y) else (y, x)

/-- test/test_unsorted_list.cpp:41-107 (`v` are the documents of the completions, `uniq` is false) and :109-171 (`v` are the first
documents of the lists, `uniq` is true) -/
def unsorted (std : StdLib) (uniq : Bool) (v : List Nat) (after1 after2 : W) (draws : List (Nat × Nat)) : M Bool := do
  let u ← UL.build v after1 after2
  if u.size ≠ v.length then .ok false
  else rangesOk std u v uniq (genRanges draws) (List.replicate MAX_K 0) (List.replicate v.length 0)

end AC.Tests
