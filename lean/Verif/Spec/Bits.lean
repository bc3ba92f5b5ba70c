import Verif.Model.Words
/-!
# Specification vocabulary for bits
-/
namespace AC

/-- bit `i` of a sequence of 64-bit words, bit 0 being the least significant bit of the first word -/
def bitAt (ws : List W) (i : Nat) : Bool := (ws.getD (i / 64) 0).getLsbD (i % 64)

/-- the first `n` bits -/
def bitList (ws : List W) (n : Nat) : List Bool := (List.range n).map (bitAt ws)

/-- the value of `len` bits starting at `pos`, least significant first -/
def valueAt (ws : List W) (pos : Nat) : Nat → Nat
  | 0 => 0
  | len + 1 => (bitAt ws pos).toNat + 2 * valueAt ws (pos + 1) len

/-- number of `i < n` with `f i` -/
def cnt (f : Nat → Bool) : Nat → Nat
  | 0 => 0
  | n + 1 => cnt f n + (f n).toNat

/-- `p` is the position of the `k`-th (from zero) true value of `f` -/
def IsSelect (f : Nat → Bool) (k p : Nat) : Prop := f p = true ∧ cnt f p = k

/-- the number written by a list of bits, least significant first -/
def natOfBits : List Bool → Nat
  | [] => 0
  | b :: L => b.toNat + 2 * natOfBits L

/-- the `len` low bits of a number, least significant first -/
def lowBits (x : W) (len : Nat) : List Bool := (List.range len).map x.toNat.testBit

end AC
