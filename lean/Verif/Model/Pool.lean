import Verif.Model.FcDictionary
/-!
# The pool of results, include/scored_string_pool.hpp, and the decoding of the results into it
-/
namespace AC

/-- `scored_string_pool`, data members: include/scored_string_pool.hpp:96-98 -/
structure Pool where
  scores : List Nat
  offsets : List Nat
  data : Str
  deriving DecidableEq, Repr

namespace Pool

/-- `resize(POOL_SIZE, MAX_K)` of the constructors, include/scored_string_pool.hpp:17-20, include/autocomplete.hpp:16 and the same in the
other index types -/
def fresh : Pool := ⟨List.replicate MAX_K 0, [], List.replicate POOL_SIZE 0⟩

/-- `clear()` and `init()`, include/scored_string_pool.hpp:13-15 and 22-24; called by `init()` of the index types,
include/autocomplete.hpp:169-173, include/autocomplete2.hpp:178-182, include/autocomplete3.hpp:167-171,
include/autocomplete4.hpp:159-163 -/
def init (p : Pool) : Pool := { p with offsets := [0] }

/-- `size()`, include/scored_string_pool.hpp:26-29 -/
def size (p : Pool) : Nat := p.offsets.length - 1

/-- `bytes()`, include/scored_string_pool.hpp:31-33; `back()` of an empty vector is an invalid read -/
def bytes (p : Pool) : M Nat :=
  match p.offsets.getLast? with
  | some x => .ok x
  | none => .error .oob

/-- `operator[](i)`, include/scored_string_pool.hpp:51-58: the score, and the bytes between the two pointers -/
def get (p : Pool) (i : Nat) : M (Nat × Str) := do
  let b ← rd p.offsets i
  let e ← rd p.offsets (i + 1)
  let score ← rd p.scores i
  if b ≤ e ∧ e ≤ p.data.length then .ok (score, (p.data.drop b).take (e - b)) else .error .oob

/-- `*it; ++it` repeated, `n` times from position `i`: include/scored_string_pool.hpp:60-88 -/
def collect (p : Pool) : Nat → Nat → M (List (Nat × Str))
  | 0, _ => .ok []
  | n + 1, i => do
      let r ← p.get i
      let rs ← collect p n (i + 1)
      .ok (r :: rs)

/-- all the results: what a client reads from the iterator returned by a query, `size()` times (src/web_server.cpp:65-73,
src/check_topk.cpp and others) -/
def results (p : Pool) : M (List (Nat × Str)) := p.collect p.size 0

end Pool

/-- `if (j != size - 1) { *decoded++ = ' '; offset++; }`, include/autocomplete.hpp:212-215, and the same in the other index types -/
def writeSpace (last : Bool) (data : Str) (off : Nat) : M (Str × Nat) :=
  if last then .ok (data, off) else do
    let data ← wr data off 32
    .ok (data, off + 1)

/-- The inner loop of `extract_strings`, include/autocomplete.hpp:207-216, include/autocomplete2.hpp:240-249,
include/autocomplete3.hpp:248-257, include/autocomplete4.hpp:273-282: `term j` is the `j`-th term (`*it`, or `c[j]`); arguments: terms
left, index `j`, data, offset (which is also where `decoded` points). -/
def writeTerms (d : FC) (term : Nat → M Nat) : Nat → Nat → Str → Nat → M (Str × Nat)
  | 0, _, data, off => .ok (data, off)
  | n + 1, j, data, off => do
      let t ← term j
      let (data, len) ← FcDict.extract d t data off
      let (data, off) ← writeSpace (n == 0) data (off + len)
      writeTerms d term n (j + 1) data off

/-- The loop of `extract_strings`, include/autocomplete.hpp:200-221, include/autocomplete2.hpp:232-254,
include/autocomplete3.hpp:240-262, include/autocomplete4.hpp:265-287: `src i` gives the number of terms of the `i`-th result and how to
read them. Arguments: results left, index `i`, pool. -/
def extractStrings (d : FC) (src : Nat → M (Nat × (Nat → M Nat))) : Nat → Nat → Pool → M Pool
  | 0, _, p => .ok p
  | n + 1, i, p => do
      let (size, term) ← src i
      let off ← p.bytes
      let (data, off) ← writeTerms d term size 0 p.data off
      extractStrings d src n (i + 1) { p with data := data, offsets := p.offsets ++ [off] }

end AC
