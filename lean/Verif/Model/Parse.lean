import Verif.Model.FcDictionary
import Verif.Model.StdLib
/-!
# Parsing of queries, include/autocomplete_common.hpp and `byte_range_iterator`, include/util_types.hpp
-/
namespace AC

/-- `byte_range_iterator::next()`, include/util_types.hpp:251-258: the token, and what remains of the range `m_r` -/
def nextToken (r : Str) : Str × Str :=
  let r := r.dropWhile (· == 32)
  (r.takeWhile (· != 32), r.dropWhile (· != 32))

/-- The loop of `parse`, include/autocomplete_common.hpp:17-26; `has_next()` (include/util_types.hpp:247-249) is true when something
remains. Arguments: remaining range, `prefix`, static array of the dictionary. Returns the value of the function, `prefix`,
`suffix` and the array. -/
def parseLoop (d : FC) (must : Bool) : Nat → Str → Ids → Str → M (Bool × Ids × Str × Str)
  | 0, _, _, _ => .error .diverge
  | fuel + 1, r, pfx, buf =>
      match nextToken r with
      | (suffix, []) => .ok (true, pfx, suffix, buf)
      | (suffix, r') => do
          let (id, buf) ← FcDict.locate d suffix buf
          if id ≠ INVALID_TERM then parseLoop d must fuel r' (pfx ++ [id]) buf
          else if must then .ok (false, pfx, suffix, buf)
          else parseLoop d must fuel r' pfx buf

/-- `parse(dict, query, prefix, suffix, must_find_prefix)`, include/autocomplete_common.hpp:13-28, with an empty `prefix` (as in all
its calls); each iteration but the last removes something from the query -/
def parse (d : FC) (q : Str) (must : Bool) (buf : Str) : M (Bool × Ids × Str × Str) :=
  parseLoop d must (q.length + 1) q [] buf

/-- the loop of `std::unique`, include/autocomplete_common.hpp:32, after the element `x` that was kept last -/
def uniqueFrom : Nat → Ids → Ids
  | x, [] => [x]
  | x, y :: l => if x = y then uniqueFrom x l else x :: uniqueFrom y l

/-- `std::unique` and the following `resize`, include/autocomplete_common.hpp:32-33: of consecutive equal elements, the first is
kept -/
def unique : Ids → Ids
  | [] => []
  | x :: l => uniqueFrom x l

/-- `deduplicate(c)`, include/autocomplete_common.hpp:30-34 -/
def deduplicate (std : StdLib) (c : Ids) : Ids := unique (std.sort id c)

end AC
