/-!
# How many bytes things should take

Nothing here refers to the model.
-/
namespace AC.Spec

/-- the number of binary digits of `x` (0 has one) -/
def digits (x : Nat) : Nat := Nat.log2 x + 1

/-- the low digits of each element of a sorted list of `n` numbers up to `u` that are written apart from the others: as many as the average
distance between the elements has, but one -/
def lowDigits (n u : Nat) : Nat := Nat.log2 (u / n)

/-- a vector of `n` numbers of `w` digits each, packed in words of 8 bytes -/
def packed (n w : Nat) : Nat := 8 * ((n * w + 63) / 64)

/-- the bits of the high parts of a sorted list of `n` numbers up to `u`: one for each number, one for each high part -/
def unary (n u : Nat) : Nat := n + u / 2 ^ lowDigits n u + 1

/-- a sorted list of `n` numbers up to `u`, with an entry for every 1024 of them, another for every 32, and `o` entries more -/
def sortedBytes (n u o : Nat) : Nat :=
  73 + packed (unary n u) 1 + packed n (lowDigits n u) + 8 * ((n + 1023) / 1024) + 2 * ((n + 31) / 32) + 8 * o

/-- `b` bytes are what a sorted list of `n` numbers up to `u` takes: there is at most one entry more for every 64 high bits, and there is none if those are at most
65536 -/
def Sized (n u b : Nat) : Prop := ∃ o, b = sortedBytes n u o ∧ 64 * o ≤ unary n u ∧ (unary n u ≤ 65536 → o = 0)

/-- how many different beginnings of `i + 1` terms the completions have, where their end counts as a term -/
def beginnings (i : Nat) (L : List (List Nat)) : Nat := ((L.filter fun c => i ≤ c.length).map fun c => (c ++ [0]).take (i + 1)).eraseDups.length

/-- the bits of a set of `n` numbers up to `u` in a stream of bits: as above, but with an entry for every 512 high parts and for every 256
numbers -/
def setBits (u n : Nat) : Nat :=
  let high := n + u / 2 ^ lowDigits n u + 2
  ((high - n) / 512 + n / 256) * digits (high - 1) + high + n * lowDigits n u

/-- the bits of one list of an inverted index: `n` numbers below `u`, with their number in front -/
def listBits (u n : Nat) : Nat := (2 * Nat.log2 n + 1) + setBits u n

/-- how many postings the terms after `lo` up to `hi` have -/
def postingCount (lists : List (List Nat)) (lo hi : Nat) : Nat := ((lists.take hi).drop lo).flatten.length

/-- how many documents they have -/
def documents (lists : List (List Nat)) (lo hi : Nat) : Nat := ((lists.take hi).drop lo).flatten.eraseDups.length

/-- the sum over the blocks that end with the terms `ends` -/
def perBlock (f : Nat → Nat → Nat) : Nat → List Nat → Nat
  | _, [] => 0
  | lo, hi :: ends => f lo hi + perBlock f hi ends

/-- how long the longest common prefix is -/
def common (s t : List Nat) : Nat := ((s.zip t).takeWhile fun p => p.1 == p.2).length

/-- the strings in groups of 17, characters of `c` bytes: the first of each group in full, the others without what they have in common with the
string before, which takes two bytes -/
def coded (c : Nat) : Nat → List Nat → List (List Nat) → Nat
  | _, _, [] => 0
  | i, prev, s :: ss => (if i % 17 = 0 then c * s.length else 2 + c * (s.length - common prev s)) + coded c (i + 1) s ss

end AC.Spec
