import Verif.Spec.Strings
/-!
# Comparison of strings, include/util_types.hpp
-/
namespace AC

/-- C `strncmp` on unsigned bytes, called at include/util_types.hpp:154 and :164: compares at most `n` bytes and
stops at a common NUL. C only fixes the sign of the result; the model returns -1, 0 or 1, and all callers only test
the sign. The third equation (a string shorter than `n`) is not reached from the two callers, which pass an `n` that is
at most both lengths (for :164 this is the assert of :161). -/
def strncmp : Nat → Str → Str → Int
  | 0, _, _ => 0
  | n + 1, a :: as, b :: bs =>
      if a < b then -1 else if b < a then 1 else if a = 0 then 0 else strncmp n as bs
  | _ + 1, _, _ => 0

/-- `byte_range_compare(l, r)`, include/util_types.hpp:150-158 -/
def byteCompare (l r : Str) : Int :=
  let n := min l.length r.length
  let cmp := strncmp n l r
  if cmp ≠ 0 then cmp else (l.length : Int) - (r.length : Int)

/-- `byte_range_compare(l, r, n)`, include/util_types.hpp:160-168 -/
def byteCompareN (l r : Str) (n : Nat) : Int :=
  let m := min l.length n
  let cmp := strncmp m l r
  if cmp ≠ 0 then cmp else (m : Int) - (n : Int)

/-- `uint32_range_compare(l, r)`, include/util_types.hpp:170-180; the loop moves both pointers, so it is a recursion
on both lists -/
def idsCompare : Ids → Ids → Int
  | x :: xs, y :: ys => if x < y then -1 else if x > y then 1 else idsCompare xs ys
  | l, r => (l.length : Int) - (r.length : Int)

/-- `uint32_range_compare(l, r, n)`, include/util_types.hpp:182-196. The case of `r` shorter than `n` is excluded by the
assert of :183 (and is not reached by the callers, which pass `n = |r|`). -/
def idsCompareN : Ids → Ids → Nat → Int
  | _, _, 0 => 0
  | x :: xs, y :: ys, n + 1 => if x < y then -1 else if x > y then 1 else idsCompareN xs ys n
  | _, _, _ + 1 => -1

end AC
