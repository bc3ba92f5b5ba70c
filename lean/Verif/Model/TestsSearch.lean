import Verif.Model.Tests
import Verif.Model.Benchmarks
/-!
# The tests of the searches: test/test_locate_prefix.cpp, test/test_autocomplete.cpp

A failed `CHECK` does not end the test; the results are whether all of them hold. Messages are left out.
-/
namespace AC.Tests

/-! ## test/test_locate_prefix.cpp -/

/-- `line.substr(line.find(' ') + 1, line.size())`, test/test_locate_prefix.cpp:51. Without a space `find` returns the greatest number, and the sum is 0. -/
def afterFirstSpace (line : Str) : Str :=
  match line.dropWhile (· != 32) with
  | [] => line
  | _ :: s => s

/-- the loop that loads the strings, test/test_locate_prefix.cpp:49-53 -/
def loadStrings : Nat → Stream → List Str
  | 0, _ => []
  | n + 1, s =>
      match s.getLine with
      | none => []
      | some (line, s) => afterFirstSpace line :: loadStrings n s

/-- `test_locate_prefix`, test/test_locate_prefix.cpp:7-28: whether all `CHECK_MESSAGE` hold, and the static arrays afterwards. `loc` is `locate_prefix` of the
index; it may change the prefix, which is not used any more. The numbers of the range are 64-bit numbers. -/
def locateOk {σ : Type} (d : FC) (loc : Ids → Range → σ → M (Range × Ids × σ)) (strings : List Str) : List Str → Str → σ → M (Bool × Str × σ)
  | [], buf, s => .ok (true, buf, s)
  | q :: qs, buf, s => do
      let expected ← locatePrefix strings q
      let (_, pfx, suffix, buf) ← parse d q true buf
      let (r, buf) ← FcDict.locatePrefix d suffix buf
      let (got, _, s) ← loc pfx ⟨(r.b + 1) % 2 ^ 64, (r.e + 1) % 2 ^ 64⟩ s
      let (ok, buf, s) ← locateOk d loc strings qs buf s
      .ok (decide (got.b = expected.b ∧ got.e = expected.e) && ok, buf, s)

/-- the percentages, test/test_locate_prefix.cpp:61, as multiples of `2^-149` -/
def percentages : List Nat := [0, 2 ^ 147, 2 ^ 148, 3 * 2 ^ 147, 2 ^ 149]

/-- the rounds of the two loops, test/test_locate_prefix.cpp:61-62,79-80: percentage and number of terms -/
def rounds : List (Nat × Nat) := percentages.flatMap fun p => [1, 2, 3, 4, 5, 6, 7].map fun n => (p, n)

/-- The loops, test/test_locate_prefix.cpp:79-101. `files n` is the text of the file of the queries of `n` terms, `none` when it cannot be opened: then the test
returns. -/
def locateRounds (d : FC) (T : List Trie.CLevel) (D : FC) (strings : List Str) (files : Nat → Option Str) : List (Nat × Nat) → Str → Ids → M Bool
  | [], _, _ => .ok true
  | (p, n) :: rs, buf, cbuf =>
      match files n with
      | none => .ok true
      | some text => do
          let qs ← Bench.loadQueries p 5000 (.ofText text)
          let (ok1, buf, _) ← locateOk d (Bench.locTrie T) strings qs buf ()
          let (ok2, buf, cbuf) ← locateOk d (IntDict.locatePrefix D) strings qs buf cbuf
          let ok3 ← locateRounds d T D strings files rs buf cbuf
          .ok (ok1 && ok2 && ok3)

/-- test/test_locate_prefix.cpp:30-102. `coll` is the text of the collection. The two sizes required at lines 70 and 76 are copies of the number of completions
of the parameters (include/completion_trie.hpp:15, include/integer_fc_dictionary.hpp:18), and left out. -/
def searches (F : Files) (coll : Str) (files : Nat → Option Str) : M Bool := do
  let d ← FcDict.build F.terms
  let strings := loadStrings F.mapped.length (.ofText coll)
  let T ← Trie.build F.levels (F.mapped.map Prod.snd)
  let (D, _) ← IntDict.build F.univ F.mapped
  locateRounds d T D strings files rounds (List.replicate FcDict.bufSize 0) (List.replicate IntDict.bufSize 0)

/-! ## test/test_autocomplete.cpp -/

/-- The loops, test/test_autocomplete.cpp:40-50, :66-76, with the results printed. `search` is `prefix_topk` or `conjunctive_topk`. -/
def topkLoop (search : Str → Scratch → M Scratch) : List Str → Scratch → M (List (List (Nat × Str)) × Scratch)
  | [], s => .ok ([], s)
  | q :: qs, s => do
      let s ← search q s
      let res ← s.pool.results
      let (rest, s) ← topkLoop search qs s
      .ok (res :: rest, s)

/-- test/test_autocomplete.cpp:7-83: the results printed of the two searches, for the queries `ps` and `cs` of lines 25-37 and 58-63. There are no checks. That the index is saved
and loaded is left out, see C33. -/
def topk (std : StdLib) (F : Files) (mem : Nat → W) (ps cs : List Str) : M (List (List (Nat × Str)) × List (List (Nat × Str))) := do
  let x ← Index1.build F mem
  let (a, s) ← topkLoop (fun q s => x.prefixTopk std q 7 s) ps Scratch.fresh
  let (b, _) ← topkLoop (fun q s => x.conjTopk std q 7 s) cs s
  .ok (a, b)

end AC.Tests
