import Verif.Prelude
/-!
# Machine words: the bit operations of include/util.hpp, by their meaning

The theorems of `Verif.Props.Words` (C46) show that the portable implementations of include/util.hpp compute these
functions.
-/
namespace AC

/-- `uint64_t` used as a string of bits -/
abbrev W := BitVec 64

namespace W

/-- positions of the ones of a word, in increasing order -/
def ones (x : W) : List Nat := (List.range 64).filter x.getLsbD

/-- `util::popcount`, include/util.hpp:305-311 -/
def popcount (x : W) : Nat := x.ones.length

/-- `util::lsb(x, ret)`, include/util.hpp:212-218: `none` when it returns false -/
def lsb (x : W) : Option Nat := x.ones.head?

/-- `util::msb(x, ret)`, include/util.hpp:199-210: `none` when it returns false -/
def msb (x : W) : Option Nat := x.ones.getLast?

/-- `util::select_in_word(x, k)`, include/util.hpp:326-341, for `k < popcount(x)` (the assert of :327) -/
def select (x : W) (k : Nat) : Nat := x.ones.getD k 0

/-- `uint64_t(-1)` -/
def all : W := BitVec.allOnes 64

end W

/-- `util::msb(x)` for `x > 0`, include/util.hpp:190-197, on values -/
def msbNat (x : Nat) : Nat := Nat.log2 x

/-- `util::ceil_log2`, include/util.hpp:227-229 -/
def ceilLog2 (x : Nat) : Nat := if x > 1 then msbNat (x - 1) + 1 else 0

/-- `util::ceil_div`, include/util.hpp:343-347 -/
def ceilDiv (a b : Nat) : Nat := (a + b - 1) / b

/-- `essentials::words_for(bits)`: the number of 64-bit words holding that many bits (library `essentials`, not in the
repository) -/
def wordsFor (n : Nat) : Nat := (n + 63) / 64

/-- `(uint64_t(1) << w) - 1`, with the `-(w == 64) |` of include/bit_vector.hpp:273 and others, where it yields all ones
whatever the (formally undefined) shift by 64 gives -/
def maskW (w : Nat) : W := if w = 64 then W.all else ((1 : W) <<< w) - 1

end AC
