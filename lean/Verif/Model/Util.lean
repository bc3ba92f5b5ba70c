import Verif.Prelude
import Verif.Model.RsBitVector
/-!
# Bit manipulation within a word, include/util.hpp

The portable versions, used when neither `USE_INTRINSICS` nor `USE_PDEP` is defined, and the versions used with these
options. The rest of the model uses the meaning (Model/Words): `Props/Words.lean` shows that these compute it. The compiler
builtins `__builtin_clzll`, `__builtin_ctzll`, `__builtin_bswap64`, `_mm_popcnt_u64` and the instructions `pdep` and `tzcnt`
are modelled by what the manuals say they compute.
-/
namespace AC
namespace Util

/-- `tables::select_in_byte`, include/util.hpp:98-180 -/
def selectInByte : List Nat := [
  8, 0, 1, 0, 2, 0, 1, 0, 3, 0, 1, 0, 2, 0, 1, 0, 4, 0, 1, 0, 2, 0, 1, 0, 3, 0, 1, 0, 2, 0, 1, 0, 5, 0, 1, 0, 2, 0, 1, 0, 3, 0, 1, 0, 2, 0, 1, 0, 4, 0, 1, 0, 2, 0, 1, 0, 3, 0, 1, 0, 2, 0, 1, 0,
  6, 0, 1, 0, 2, 0, 1, 0, 3, 0, 1, 0, 2, 0, 1, 0, 4, 0, 1, 0, 2, 0, 1, 0, 3, 0, 1, 0, 2, 0, 1, 0, 5, 0, 1, 0, 2, 0, 1, 0, 3, 0, 1, 0, 2, 0, 1, 0, 4, 0, 1, 0, 2, 0, 1, 0, 3, 0, 1, 0, 2, 0, 1, 0,
  7, 0, 1, 0, 2, 0, 1, 0, 3, 0, 1, 0, 2, 0, 1, 0, 4, 0, 1, 0, 2, 0, 1, 0, 3, 0, 1, 0, 2, 0, 1, 0, 5, 0, 1, 0, 2, 0, 1, 0, 3, 0, 1, 0, 2, 0, 1, 0, 4, 0, 1, 0, 2, 0, 1, 0, 3, 0, 1, 0, 2, 0, 1, 0,
  6, 0, 1, 0, 2, 0, 1, 0, 3, 0, 1, 0, 2, 0, 1, 0, 4, 0, 1, 0, 2, 0, 1, 0, 3, 0, 1, 0, 2, 0, 1, 0, 5, 0, 1, 0, 2, 0, 1, 0, 3, 0, 1, 0, 2, 0, 1, 0, 4, 0, 1, 0, 2, 0, 1, 0, 3, 0, 1, 0, 2, 0, 1, 0,
  8, 8, 8, 1, 8, 2, 2, 1, 8, 3, 3, 1, 3, 2, 2, 1, 8, 4, 4, 1, 4, 2, 2, 1, 4, 3, 3, 1, 3, 2, 2, 1, 8, 5, 5, 1, 5, 2, 2, 1, 5, 3, 3, 1, 3, 2, 2, 1, 5, 4, 4, 1, 4, 2, 2, 1, 4, 3, 3, 1, 3, 2, 2, 1,
  8, 6, 6, 1, 6, 2, 2, 1, 6, 3, 3, 1, 3, 2, 2, 1, 6, 4, 4, 1, 4, 2, 2, 1, 4, 3, 3, 1, 3, 2, 2, 1, 6, 5, 5, 1, 5, 2, 2, 1, 5, 3, 3, 1, 3, 2, 2, 1, 5, 4, 4, 1, 4, 2, 2, 1, 4, 3, 3, 1, 3, 2, 2, 1,
  8, 7, 7, 1, 7, 2, 2, 1, 7, 3, 3, 1, 3, 2, 2, 1, 7, 4, 4, 1, 4, 2, 2, 1, 4, 3, 3, 1, 3, 2, 2, 1, 7, 5, 5, 1, 5, 2, 2, 1, 5, 3, 3, 1, 3, 2, 2, 1, 5, 4, 4, 1, 4, 2, 2, 1, 4, 3, 3, 1, 3, 2, 2, 1,
  7, 6, 6, 1, 6, 2, 2, 1, 6, 3, 3, 1, 3, 2, 2, 1, 6, 4, 4, 1, 4, 2, 2, 1, 4, 3, 3, 1, 3, 2, 2, 1, 6, 5, 5, 1, 5, 2, 2, 1, 5, 3, 3, 1, 3, 2, 2, 1, 5, 4, 4, 1, 4, 2, 2, 1, 4, 3, 3, 1, 3, 2, 2, 1,
  8, 8, 8, 8, 8, 8, 8, 2, 8, 8, 8, 3, 8, 3, 3, 2, 8, 8, 8, 4, 8, 4, 4, 2, 8, 4, 4, 3, 4, 3, 3, 2, 8, 8, 8, 5, 8, 5, 5, 2, 8, 5, 5, 3, 5, 3, 3, 2, 8, 5, 5, 4, 5, 4, 4, 2, 5, 4, 4, 3, 4, 3, 3, 2,
  8, 8, 8, 6, 8, 6, 6, 2, 8, 6, 6, 3, 6, 3, 3, 2, 8, 6, 6, 4, 6, 4, 4, 2, 6, 4, 4, 3, 4, 3, 3, 2, 8, 6, 6, 5, 6, 5, 5, 2, 6, 5, 5, 3, 5, 3, 3, 2, 6, 5, 5, 4, 5, 4, 4, 2, 5, 4, 4, 3, 4, 3, 3, 2,
  8, 8, 8, 7, 8, 7, 7, 2, 8, 7, 7, 3, 7, 3, 3, 2, 8, 7, 7, 4, 7, 4, 4, 2, 7, 4, 4, 3, 4, 3, 3, 2, 8, 7, 7, 5, 7, 5, 5, 2, 7, 5, 5, 3, 5, 3, 3, 2, 7, 5, 5, 4, 5, 4, 4, 2, 5, 4, 4, 3, 4, 3, 3, 2,
  8, 7, 7, 6, 7, 6, 6, 2, 7, 6, 6, 3, 6, 3, 3, 2, 7, 6, 6, 4, 6, 4, 4, 2, 6, 4, 4, 3, 4, 3, 3, 2, 7, 6, 6, 5, 6, 5, 5, 2, 6, 5, 5, 3, 5, 3, 3, 2, 6, 5, 5, 4, 5, 4, 4, 2, 5, 4, 4, 3, 4, 3, 3, 2,
  8, 8, 8, 8, 8, 8, 8, 8, 8, 8, 8, 8, 8, 8, 8, 3, 8, 8, 8, 8, 8, 8, 8, 4, 8, 8, 8, 4, 8, 4, 4, 3, 8, 8, 8, 8, 8, 8, 8, 5, 8, 8, 8, 5, 8, 5, 5, 3, 8, 8, 8, 5, 8, 5, 5, 4, 8, 5, 5, 4, 5, 4, 4, 3,
  8, 8, 8, 8, 8, 8, 8, 6, 8, 8, 8, 6, 8, 6, 6, 3, 8, 8, 8, 6, 8, 6, 6, 4, 8, 6, 6, 4, 6, 4, 4, 3, 8, 8, 8, 6, 8, 6, 6, 5, 8, 6, 6, 5, 6, 5, 5, 3, 8, 6, 6, 5, 6, 5, 5, 4, 6, 5, 5, 4, 5, 4, 4, 3,
  8, 8, 8, 8, 8, 8, 8, 7, 8, 8, 8, 7, 8, 7, 7, 3, 8, 8, 8, 7, 8, 7, 7, 4, 8, 7, 7, 4, 7, 4, 4, 3, 8, 8, 8, 7, 8, 7, 7, 5, 8, 7, 7, 5, 7, 5, 5, 3, 8, 7, 7, 5, 7, 5, 5, 4, 7, 5, 5, 4, 5, 4, 4, 3,
  8, 8, 8, 7, 8, 7, 7, 6, 8, 7, 7, 6, 7, 6, 6, 3, 8, 7, 7, 6, 7, 6, 6, 4, 7, 6, 6, 4, 6, 4, 4, 3, 8, 7, 7, 6, 7, 6, 6, 5, 7, 6, 6, 5, 6, 5, 5, 3, 7, 6, 6, 5, 6, 5, 5, 4, 6, 5, 5, 4, 5, 4, 4, 3,
  8, 8, 8, 8, 8, 8, 8, 8, 8, 8, 8, 8, 8, 8, 8, 8, 8, 8, 8, 8, 8, 8, 8, 8, 8, 8, 8, 8, 8, 8, 8, 4, 8, 8, 8, 8, 8, 8, 8, 8, 8, 8, 8, 8, 8, 8, 8, 5, 8, 8, 8, 8, 8, 8, 8, 5, 8, 8, 8, 5, 8, 5, 5, 4,
  8, 8, 8, 8, 8, 8, 8, 8, 8, 8, 8, 8, 8, 8, 8, 6, 8, 8, 8, 8, 8, 8, 8, 6, 8, 8, 8, 6, 8, 6, 6, 4, 8, 8, 8, 8, 8, 8, 8, 6, 8, 8, 8, 6, 8, 6, 6, 5, 8, 8, 8, 6, 8, 6, 6, 5, 8, 6, 6, 5, 6, 5, 5, 4,
  8, 8, 8, 8, 8, 8, 8, 8, 8, 8, 8, 8, 8, 8, 8, 7, 8, 8, 8, 8, 8, 8, 8, 7, 8, 8, 8, 7, 8, 7, 7, 4, 8, 8, 8, 8, 8, 8, 8, 7, 8, 8, 8, 7, 8, 7, 7, 5, 8, 8, 8, 7, 8, 7, 7, 5, 8, 7, 7, 5, 7, 5, 5, 4,
  8, 8, 8, 8, 8, 8, 8, 7, 8, 8, 8, 7, 8, 7, 7, 6, 8, 8, 8, 7, 8, 7, 7, 6, 8, 7, 7, 6, 7, 6, 6, 4, 8, 8, 8, 7, 8, 7, 7, 6, 8, 7, 7, 6, 7, 6, 6, 5, 8, 7, 7, 6, 7, 6, 6, 5, 7, 6, 6, 5, 6, 5, 5, 4,
  8, 8, 8, 8, 8, 8, 8, 8, 8, 8, 8, 8, 8, 8, 8, 8, 8, 8, 8, 8, 8, 8, 8, 8, 8, 8, 8, 8, 8, 8, 8, 8, 8, 8, 8, 8, 8, 8, 8, 8, 8, 8, 8, 8, 8, 8, 8, 8, 8, 8, 8, 8, 8, 8, 8, 8, 8, 8, 8, 8, 8, 8, 8, 5,
  8, 8, 8, 8, 8, 8, 8, 8, 8, 8, 8, 8, 8, 8, 8, 8, 8, 8, 8, 8, 8, 8, 8, 8, 8, 8, 8, 8, 8, 8, 8, 6, 8, 8, 8, 8, 8, 8, 8, 8, 8, 8, 8, 8, 8, 8, 8, 6, 8, 8, 8, 8, 8, 8, 8, 6, 8, 8, 8, 6, 8, 6, 6, 5,
  8, 8, 8, 8, 8, 8, 8, 8, 8, 8, 8, 8, 8, 8, 8, 8, 8, 8, 8, 8, 8, 8, 8, 8, 8, 8, 8, 8, 8, 8, 8, 7, 8, 8, 8, 8, 8, 8, 8, 8, 8, 8, 8, 8, 8, 8, 8, 7, 8, 8, 8, 8, 8, 8, 8, 7, 8, 8, 8, 7, 8, 7, 7, 5,
  8, 8, 8, 8, 8, 8, 8, 8, 8, 8, 8, 8, 8, 8, 8, 7, 8, 8, 8, 8, 8, 8, 8, 7, 8, 8, 8, 7, 8, 7, 7, 6, 8, 8, 8, 8, 8, 8, 8, 7, 8, 8, 8, 7, 8, 7, 7, 6, 8, 8, 8, 7, 8, 7, 7, 6, 8, 7, 7, 6, 7, 6, 6, 5,
  8, 8, 8, 8, 8, 8, 8, 8, 8, 8, 8, 8, 8, 8, 8, 8, 8, 8, 8, 8, 8, 8, 8, 8, 8, 8, 8, 8, 8, 8, 8, 8, 8, 8, 8, 8, 8, 8, 8, 8, 8, 8, 8, 8, 8, 8, 8, 8, 8, 8, 8, 8, 8, 8, 8, 8, 8, 8, 8, 8, 8, 8, 8, 8,
  8, 8, 8, 8, 8, 8, 8, 8, 8, 8, 8, 8, 8, 8, 8, 8, 8, 8, 8, 8, 8, 8, 8, 8, 8, 8, 8, 8, 8, 8, 8, 8, 8, 8, 8, 8, 8, 8, 8, 8, 8, 8, 8, 8, 8, 8, 8, 8, 8, 8, 8, 8, 8, 8, 8, 8, 8, 8, 8, 8, 8, 8, 8, 6,
  8, 8, 8, 8, 8, 8, 8, 8, 8, 8, 8, 8, 8, 8, 8, 8, 8, 8, 8, 8, 8, 8, 8, 8, 8, 8, 8, 8, 8, 8, 8, 8, 8, 8, 8, 8, 8, 8, 8, 8, 8, 8, 8, 8, 8, 8, 8, 8, 8, 8, 8, 8, 8, 8, 8, 8, 8, 8, 8, 8, 8, 8, 8, 7,
  8, 8, 8, 8, 8, 8, 8, 8, 8, 8, 8, 8, 8, 8, 8, 8, 8, 8, 8, 8, 8, 8, 8, 8, 8, 8, 8, 8, 8, 8, 8, 7, 8, 8, 8, 8, 8, 8, 8, 8, 8, 8, 8, 8, 8, 8, 8, 7, 8, 8, 8, 8, 8, 8, 8, 7, 8, 8, 8, 7, 8, 7, 7, 6,
  8, 8, 8, 8, 8, 8, 8, 8, 8, 8, 8, 8, 8, 8, 8, 8, 8, 8, 8, 8, 8, 8, 8, 8, 8, 8, 8, 8, 8, 8, 8, 8, 8, 8, 8, 8, 8, 8, 8, 8, 8, 8, 8, 8, 8, 8, 8, 8, 8, 8, 8, 8, 8, 8, 8, 8, 8, 8, 8, 8, 8, 8, 8, 8,
  8, 8, 8, 8, 8, 8, 8, 8, 8, 8, 8, 8, 8, 8, 8, 8, 8, 8, 8, 8, 8, 8, 8, 8, 8, 8, 8, 8, 8, 8, 8, 8, 8, 8, 8, 8, 8, 8, 8, 8, 8, 8, 8, 8, 8, 8, 8, 8, 8, 8, 8, 8, 8, 8, 8, 8, 8, 8, 8, 8, 8, 8, 8, 8,
  8, 8, 8, 8, 8, 8, 8, 8, 8, 8, 8, 8, 8, 8, 8, 8, 8, 8, 8, 8, 8, 8, 8, 8, 8, 8, 8, 8, 8, 8, 8, 8, 8, 8, 8, 8, 8, 8, 8, 8, 8, 8, 8, 8, 8, 8, 8, 8, 8, 8, 8, 8, 8, 8, 8, 8, 8, 8, 8, 8, 8, 8, 8, 8,
  8, 8, 8, 8, 8, 8, 8, 8, 8, 8, 8, 8, 8, 8, 8, 8, 8, 8, 8, 8, 8, 8, 8, 8, 8, 8, 8, 8, 8, 8, 8, 8, 8, 8, 8, 8, 8, 8, 8, 8, 8, 8, 8, 8, 8, 8, 8, 8, 8, 8, 8, 8, 8, 8, 8, 8, 8, 8, 8, 8, 8, 8, 8, 7]

/-- `ones_step_4`, include/util.hpp:235 -/
def ones4 : W := 0x1111111111111111
/-- `ones_step_8`, include/util.hpp:236 -/
def ones8 : W := 0x0101010101010101
/-- `msbs_step_8`, include/util.hpp:240 -/
def msbs8 : W := 0x80 * ones8
/-- `magic_mask_1`, include/util.hpp:249 -/
def mask1 : W := 0x5555555555555555
/-- `magic_mask_2`, include/util.hpp:250 -/
def mask2 : W := 0x3333333333333333
/-- `magic_mask_3`, include/util.hpp:251 -/
def mask3 : W := 0x0F0F0F0F0F0F0F0F
/-- `magic_mask_4`, include/util.hpp:252 -/
def mask4 : W := 0x00FF00FF00FF00FF
/-- `magic_mask_5`, include/util.hpp:253 -/
def mask5 : W := 0x0000FFFF0000FFFF

/-- `leq_step_8(x, y)`, include/util.hpp:256-260 -/
def leqStep8 (x y : W) : W := ((((y ||| msbs8) - (x &&& ~~~msbs8)) ^^^ (x ^^^ y)) &&& msbs8) >>> 7

/-- `byte_counts(x)`, include/util.hpp:268-273 -/
def byteCounts (x : W) : W :=
  let x := x - ((x &&& (0xa : W) * ones4) >>> 1)
  let x := (x &&& (3 : W) * ones4) + ((x >>> 2) &&& (3 : W) * ones4)
  (x + (x >>> 4)) &&& (0x0f : W) * ones8

/-- `bytes_sum(x)`, include/util.hpp:275-277 -/
def bytesSum (x : W) : W := (x * ones8) >>> 56

/-- `reverse_bytes(x)`, include/util.hpp:287-296 -/
def reverseBytes (x : W) : W :=
  let x := ((x >>> 8) &&& mask4) ||| ((x &&& mask4) <<< 8)
  let x := ((x >>> 16) &&& mask5) ||| ((x &&& mask5) <<< 16)
  (x >>> 32) ||| (x <<< 32)

/-- `reverse_bits(x)`, include/util.hpp:298-303 -/
def reverseBits (x : W) : W :=
  let x := ((x >>> 1) &&& mask1) ||| ((x &&& mask1) <<< 1)
  let x := ((x >>> 2) &&& mask2) ||| ((x &&& mask2) <<< 2)
  let x := ((x >>> 4) &&& mask3) ||| ((x &&& mask3) <<< 4)
  reverseBytes x

/-- `popcount(x)`, include/util.hpp:305-311 -/
def popcount (x : W) : W := bytesSum (byteCounts x)

/-- `select_in_word(x, k)`, include/util.hpp:326-341; a shift by 64 is undefined -/
def selectInWord (x k : W) : M Nat := do
  let byteSums := byteCounts x * ones8
  let kStep8 := k * ones8
  let geqK := ((kStep8 ||| msbs8) - byteSums) &&& msbs8
  let place := (popcount geqK * 8).toNat
  if 64 ≤ place then throw .oob
  let byteRank := k - (((byteSums <<< 8) >>> place) &&& (0xFF : W))
  let b ← rd selectInByte (((x >>> place) &&& (0xFF : W)) ||| (byteRank <<< 8)).toNat
  return place + b

/-- `__builtin_clzll(x)` for `x ≠ 0`: the number of leading zeros of the 64 bits -/
def clz (x : W) : Nat := ((List.range 64).find? (fun i => x.getLsbD (63 - i))).getD 64

/-- `__builtin_ctzll(x)` for `x ≠ 0`: the number of trailing zeros -/
def ctz (x : W) : Nat := ((List.range 64).find? (fun i => x.getLsbD i)).getD 64

/-- `msb(x)`, include/util.hpp:190-197; `ret` is `-1U` when `x` is zero -/
def msb (x : W) : Nat := if x ≠ 0 then (63 - clz x) % 256 else (2 ^ 32 - 1) % 256

/-- `lsb(x)`, include/util.hpp:220-225 -/
def lsb (x : W) : Nat := if x ≠ 0 then ctz x % 256 else (2 ^ 32 - 1) % 256

/-- `ceil_log2(x)`, include/util.hpp:227-229 -/
def ceilLog2 (x : W) : Nat := if x.toNat > 1 then msb (x - 1) + 1 else 0

/-- `floor_log2(x)`, include/util.hpp:231-233 -/
def floorLog2 (x : W) : Nat := if x.toNat > 1 then msb x else 0

/-! ## With `USE_INTRINSICS` and `USE_PDEP` -/

/-- `__builtin_bswap64`: `byteswap64(value)`, include/util.hpp:279-285, takes the bytes from the lowest to the highest and
shifts each in at the low end -/
def byteswap64 (x : W) : W :=
  (List.range 8).foldl (fun r i => (r <<< 8) ||| ((x >>> (8 * i)) &&& 0xFF)) 0

/-- `_mm_popcnt_u64`: adds up the 64 bits -/
def popcnt (x : W) : Nat := (List.range 64).foldl (fun r i => r + (x.getLsbD i).toNat) 0

/-- the loop in the description of `PDEP` in Intel's manual: `m` goes over the bits of the mask, `k` over those of the
source -/
def pdepLoop (src mask : W) : Nat → Nat → Nat → W → W
  | 0, _, _, dest => dest
  | n + 1, m, k, dest =>
      if mask.getLsbD m then
        pdepLoop src mask n (m + 1) (k + 1) (if src.getLsbD k then dest ||| ((1 : W) <<< m) else dest)
      else pdepLoop src mask n (m + 1) k dest

/-- `pdep`: the bits of `src` go to the positions of the ones of `mask` -/
def pdep (src mask : W) : W := pdepLoop src mask 64 0 0 0

/-- `tzcnt`: the number of trailing zeros, 64 for zero -/
def tzcnt (x : W) : Nat := ((List.range 64).find? (fun i => x.getLsbD i)).getD 64

/-- `select64_pdep_tzcnt(x, k)`, include/util.hpp:319-324. In the notation of the assembler the mask `x` comes first, then
the source `i`, then the destination. A shift by 64 or more is undefined. -/
def selectPdep (x : W) (k : Nat) : M Nat :=
  if 64 ≤ k then .error .oob else .ok (tzcnt (pdep ((1 : W) <<< k) x))

/-- `popcount(x)` with `USE_INTRINSICS` or without, include/util.hpp:305-311 -/
def popcountOf (intrinsics : Bool) (x : W) : Nat := if intrinsics then popcnt x else (popcount x).toNat

/-- `reverse_bytes(x)` with `USE_INTRINSICS` or without, include/util.hpp:287-296 -/
def reverseBytesOf (intrinsics : Bool) (x : W) : W := if intrinsics then byteswap64 x else reverseBytes x

/-- `reverse_bits(x)` with `USE_INTRINSICS` or without, include/util.hpp:298-303 -/
def reverseBitsOf (intrinsics : Bool) (x : W) : W :=
  let x := ((x >>> 1) &&& mask1) ||| ((x &&& mask1) <<< 1)
  let x := ((x >>> 2) &&& mask2) ||| ((x &&& mask2) <<< 2)
  let x := ((x >>> 4) &&& mask3) ||| ((x &&& mask3) <<< 4)
  reverseBytesOf intrinsics x

/-- `select_in_word(x, k)` with `USE_PDEP` or without, include/util.hpp:326-341; the popcount of :334 with
`USE_INTRINSICS` or without -/
def selectInWordOf (intrinsics usePdep : Bool) (x : W) (k : Nat) : M Nat :=
  if usePdep then selectPdep x k
  else do
    let k := BitVec.ofNat 64 k
    let byteSums := byteCounts x * ones8
    let kStep8 := k * ones8
    let geqK := ((kStep8 ||| msbs8) - byteSums) &&& msbs8
    let place := popcountOf intrinsics geqK * 8
    if 64 ≤ place then throw .oob
    let byteRank := k - (((byteSums <<< 8) >>> place) &&& (0xFF : W))
    let b ← rd selectInByte (((x >>> place) &&& (0xFF : W)) ||| (byteRank <<< 8)).toNat
    return place + b

end Util
end AC
