import Verif.Model.Programs
/-!
# The benchmark of effectiveness, built with assertions

A build with `-DCMAKE_BUILD_TYPE=Debug` (CMakeLists.txt:4-12, recommended for testing by README.md:77) keeps the `assert`s. A failed one is
`Fault.aborted`.
-/
namespace AC.Bench

/-- `std::is_sorted`: no element is less than the one before -/
def isSorted : List Nat → Bool
  | x :: y :: l => if y < x then false else isSorted (y :: l)
  | _ => true

/-- The loop of `benchmark` with its assertions, benchmark/effectiveness.cpp:28-79 (the assertions: 34, 38-41); see
`Bench.effectiveness` for the rest. `it.size()` is `size()` of the pool, include/scored_string_pool.hpp:26-29 (the assertion: 27). -/
def effectivenessD (prefix1 conj2 : Str → Nat → Scratch → M Scratch) (k : Nat) : List Str → Scratch → Scratch → M (Nat × Nat)
  | [], _, _ => .ok (0, 0)
  | q :: qs, s1, s2 => do
      let s1 ← prefix1 q k s1
      let s2 ← conj2 q k s2
      check (0 < s1.pool.offsets.length)
      check (0 < s2.pool.offsets.length)
      check (s1.pool.size ≤ s2.pool.size)
      let a := s1.pool.scores.take s1.pool.size
      let b := s2.pool.scores.take s2.pool.size
      check (isSorted a = true)
      check (isSorted b = true)
      let diff := setDifference (a.length + b.length + 1) b a
      if diff.length > k then .error .oob
      else do
        let (strings, better) ← effectivenessD prefix1 conj2 k qs s1 s2
        .ok (s1.pool.size + strings, diff.length + better)

end AC.Bench
