/-!
# Non-negative `float` numbers

A finite `float` is a multiple of `2^-149`. A non-negative one is given by the multiple `v`; the ones below `2^24` are all floats (this covers the
subnormal numbers), the others have 24 significant bits. Results of operations are rounded to the nearest float, to the even one of
two. Infinities are not represented: the operations of the code that are modelled with these numbers stay far below.
-/
namespace AC.F32

/-- rounding to 24 significant bits, to nearest, ties to even -/
def round (v : Nat) : Nat :=
  if v < 2 ^ 24 then v
  else
    let s := v.log2 - 23
    let q := v / 2 ^ s
    let r := v % 2 ^ s
    if 2 * r > 2 ^ s || (2 * r == 2 ^ s && q % 2 == 1) then (q + 1) * 2 ^ s else q * 2 ^ s

/-- the units of `1.0f` -/
def one : Nat := 2 ^ 149

/-- conversion of an unsigned integer to `float`; the result is an integer, given as such -/
def ofNat (n : Nat) : Nat := round n

/-- the product of an integer that is a `float` (given as an integer) and a `float` -/
def mul (n p : Nat) : Nat := round (n * p)

/-- `std::ceil`, as an integer -/
def ceil (v : Nat) : Nat := (v + (one - 1)) / one

/-- conversion to an unsigned integer -/
def trunc (v : Nat) : Nat := v / one

end AC.F32
