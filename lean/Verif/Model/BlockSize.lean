import Verif.Model.Float32
import Verif.Model.Autocomplete4
/-!
# The block size of the blocked inverted index
-/
namespace AC

/-- `m = m_num_docs * c`, with the check of `c`, include/blocked_inverted_index.hpp:25-27,36; `u` is `m_num_docs`, and `c` is given as a multiple of `2^-149`.
Negative numbers, infinities and NaN, for which the exception is thrown as well, are not represented. The product is one of `float` numbers
and is truncated. -/
def blockSize (u c : Nat) : M Nat :=
  if !(decide (0 < c) && decide (c ≤ F32.one)) then .error .thrown else .ok (F32.trunc (F32.mul (F32.ofNat u) c))

namespace Index4

/-- `autocomplete4(params, c)`, include/autocomplete4.hpp:25-38, from the number `c` -/
def buildC (std : StdLib) (c : Nat) (F : Files) (mem : Nat → W) : M Index4 := do
  let m ← blockSize F.univ c
  build std m F mem

end Index4
end AC
