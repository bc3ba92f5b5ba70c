import Verif.Model.Tools
import Verif.Model.Autocomplete
/-!
# The programs around the indexes: src/map_queries.cpp, src/output_ds2i_format.cpp, benchmark/effectiveness.cpp
-/
namespace AC

/-! ## src/map_queries.cpp -/

/-- `parse(dict, query)`, src/map_queries.cpp:8-19: one token after the other, its id less one. The assertions are compiled out; an id is never 0
(`base_id` of include/fc_dictionary.hpp:141 is at least 1). -/
def mapLoop (d : FC) : Nat → Str → Ids → Str → M (Ids × Str)
  | 0, _, _, _ => .error .diverge
  | fuel + 1, r, c, buf =>
      if r.isEmpty then .ok (c, buf)
      else do
        let (t, r) := nextToken r
        let (id, buf) ← FcDict.locate d t buf
        mapLoop d fuel r (c ++ [id - 1]) buf

/-- numbers separated by tabs, src/map_queries.cpp:43-47; `front()` of an empty vector is an invalid read -/
def tabbed : Ids → M Str
  | [] => .error .oob
  | x :: xs => .ok (Pre.dec x ++ xs.flatMap (fun y => 9 :: Pre.dec y) ++ [10])

/-- the loop of src/map_queries.cpp:40-48: what is written to the standard error stream -/
def mapQueries (d : FC) : Nat → Stream → Str → M Str
  | 0, _, _ => .ok []
  | n + 1, s, buf =>
      match s.getLine with
      | none => .ok []
      | some (q, s) => do
          let (c, buf) ← mapLoop d (q.length + 1) q [] buf
          let line ← tabbed c
          let rest ← mapQueries d n s buf
          .ok (line ++ rest)

/-! ## src/output_ds2i_format.cpp -/

/-- `write(reinterpret_cast<const char*>(&n), sizeof(uint32_t))` on a little-endian machine -/
def u32le (n : Nat) : Str := [n % 256, n / 256 % 256, n / 65536 % 256, n / 16777216 % 256]

/-- the length of a list and its elements, src/output_ds2i_format.cpp:51-56 -/
def ds2iList (l : List Nat) : Str := u32le l.length ++ l.flatMap u32le

/-- The files `.docs` and `.freqs`, src/output_ds2i_format.cpp:27-56. The lists are read as by the constructors of the indexes. -/
def ds2i (P : Params) (inverted : Str) : M (Str × Str) := do
  let lists ← readLists P.numTerms (.ofText inverted)
  .ok (u32le 1 ++ u32le P.univ ++ lists.flatMap ds2iList, lists.flatMap (fun l => ds2iList (l.map (fun _ => 1))))

/-! ## benchmark/effectiveness.cpp -/

/-- `std::set_difference(…)`; every iteration of the loop removes an element of one of the lists -/
def setDifference : Nat → List Nat → List Nat → List Nat
  | 0, _, _ => []
  | _ + 1, [], _ => []
  | _ + 1, a, [] => a
  | fuel + 1, x :: a, y :: b =>
      if x < y then x :: setDifference fuel a (y :: b)
      else if y < x then setDifference fuel (x :: a) b
      else setDifference fuel a b

namespace Bench

/-- The loop of `benchmark`, benchmark/effectiveness.cpp:28-79, without the output of `--verbose`: the two sums. `prefix1` is `prefix_topk` of the first of the two
indexes, `conj2` is `conjunctive_topk` of the second; `s1` and `s2` are their states. The differences are written to reserved memory behind the
end of the empty vector `difference`, which has room for `k` of them. -/
def effectiveness (prefix1 conj2 : Str → Nat → Scratch → M Scratch) (k : Nat) : List Str → Scratch → Scratch → M (Nat × Nat)
  | [], _, _ => .ok (0, 0)
  | q :: qs, s1, s2 => do
      let s1 ← prefix1 q k s1
      let s2 ← conj2 q k s2
      let a := s1.pool.scores.take s1.pool.size
      let b := s2.pool.scores.take s2.pool.size
      let diff := setDifference (a.length + b.length + 1) b a
      if diff.length > k then .error .oob
      else do
        let (strings, better) ← effectiveness prefix1 conj2 k qs s1 s2
        .ok (s1.pool.size + strings, diff.length + better)

end Bench
end AC
