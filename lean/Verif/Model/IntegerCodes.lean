import Verif.Model.BitVector
/-!
# Integer codes, include/integer_codes.hpp
-/
namespace AC

/-- `write_gamma(bvb, n)`, include/integer_codes.hpp:8-14. `n + 1` is computed on 64 bits; on zero, `util::msb`
(assertion disabled) gives 255 and the shift by 255 is undefined. -/
def writeGamma (bvb : BVB) (n : W) : M BVB :=
  let nn := n + 1
  if nn = 0 then .error .unreachable
  else
    let l := msbNat nn.toNat
    let hb := (1 : W) <<< l
    let bvb := bvb.appendBits hb (l + 1)
    .ok (bvb.appendBits (nn ^^^ hb) l)

/-- `write_gamma_nonzero`, include/integer_codes.hpp:16-19 -/
def writeGammaNonzero (bvb : BVB) (n : W) : M BVB := writeGamma bvb (n - 1)

/-- `read_gamma(it)`, include/integer_codes.hpp:21-24 -/
def readGamma (v : BV) (it : BI) : M (W × BI) := do
  let (l, it) ← it.skipZeros v
  let (x, it) ← it.getBits v l
  .ok ((x ||| ((1 : W) <<< l)) - 1, it)

/-- `read_gamma_nonzero`, include/integer_codes.hpp:26-28 -/
def readGammaNonzero (v : BV) (it : BI) : M (W × BI) := do
  let (x, it) ← readGamma v it
  .ok (x + 1, it)

/-- `write_delta`, include/integer_codes.hpp:30-36 -/
def writeDelta (bvb : BVB) (n : W) : M BVB := do
  let nn := n + 1
  if nn = 0 then .error .unreachable
  else do
    let l := msbNat nn.toNat
    let hb := (1 : W) <<< l
    let bvb ← writeGamma bvb (BitVec.ofNat 64 l)
    .ok (bvb.appendBits (nn ^^^ hb) l)

/-- `read_delta`, include/integer_codes.hpp:38-41 -/
def readDelta (v : BV) (it : BI) : M (W × BI) := do
  let (l, it) ← readGamma v it
  let (x, it) ← it.getBits v l.toNat
  .ok ((x ||| ((1 : W) <<< l.toNat)) - 1, it)

end AC
