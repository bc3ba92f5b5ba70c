import Verif.Proofs.Bytes
import Verif.Proofs.Pack9
/-!
# What the portable bit manipulation computes
-/
namespace AC
namespace Util

/-- the positions of the ones of a byte -/
def byteOnes (b : Nat) : List Nat := (List.range 8).filter b.testBit

/-! ## Counting -/

theorem zip_const (bs : List Nat) (c : Nat) (f : Nat → Nat → Nat) : List.zipWith f bs (List.replicate bs.length c) = bs.map (f · c) := by
  induction bs with
  | nil => rfl
  | cons b bs ih => simp [List.replicate_succ, ih]

theorem pack_and_const {bs : List Nat} (h : ∀ b ∈ bs, b < 256) (c : Nat) (hc : c < 256) :
    pack bs &&& pack (List.replicate bs.length c) = pack (bs.map (· &&& c)) := by
  rw [pack_and h (fun g hg => by rw [List.mem_replicate] at hg; omega) (by simp), zip_const]

theorem pack_or_const {bs : List Nat} (h : ∀ b ∈ bs, b < 256) (c : Nat) (hc : c < 256) :
    pack bs ||| pack (List.replicate bs.length c) = pack (bs.map (· ||| c)) := by
  rw [pack_or h (fun g hg => by rw [List.mem_replicate] at hg; omega) (by simp), zip_const]

theorem all_bytes {P : Nat → Prop} (h : ∀ b : Fin 256, P b) : ∀ b, b < 256 → P b := fun b hb => h ⟨b, hb⟩

/-- first and second step on a byte -/
def halve (b : Nat) : Nat := b - (b &&& 170) / 2
def quarter (b : Nat) : Nat := (halve b &&& 51) + (halve b &&& 204) / 4

theorem halve_le : ∀ b, b < 256 → (b &&& 170) / 2 ≤ b := fun b _ => by have : b &&& 170 ≤ b := Nat.and_le_left
                                                                       omega
theorem halve_lt (b : Nat) (hb : b < 256) : halve b < 256 := by unfold halve; omega

theorem quarter_nibbles : ∀ b, b < 256 → quarter b % 16 ≤ 4 ∧ quarter b / 16 ≤ 4 ∧ quarter b % 16 + quarter b / 16 = (byteOnes b).length :=
  all_bytes (P := fun b => quarter b % 16 ≤ 4 ∧ quarter b / 16 ≤ 4 ∧ quarter b % 16 + quarter b / 16 = (byteOnes b).length)
    (by decide +kernel)

theorem toNat_and_bytes (x c : W) (m : Nat) (hm : m < 256) {bs : List Nat} (hl : bs.length = 8) (hb : ∀ b ∈ bs, b < 256)
    (hx : x.toNat = pack bs) (hc : c.toNat = pack (List.replicate 8 m)) : (x &&& c).toNat = pack (bs.map (· &&& m)) := by
  rw [BitVec.toNat_and, hx, hc, ← hl, pack_and_const hb m hm]

theorem and_shift (n m k : Nat) : (n >>> k) &&& m = (n &&& (m <<< k)) >>> k := by
  apply Nat.eq_of_testBit_eq
  intro j
  simp [Nat.testBit_shiftRight, Nat.testBit_shiftLeft]

theorem and_dvd (n m : Nat) (k : Nat) (h : m % 2 ^ k = 0) : 2 ^ k ∣ n &&& m := by
  apply Nat.dvd_of_mod_eq_zero
  rw [Nat.and_mod_two_pow, h, Nat.and_zero]

theorem pack8 (b0 b1 b2 b3 b4 b5 b6 b7 : Nat) : pack [b0, b1, b2, b3, b4, b5, b6, b7] =
    b0 + 256 * b1 + 256 ^ 2 * b2 + 256 ^ 3 * b3 + 256 ^ 4 * b4 + 256 ^ 5 * b5 + 256 ^ 6 * b6 + 256 ^ 7 * b7 := by
  simp only [pack]; omega

theorem eight {bs : List Nat} (h : bs.length = 8) : ∃ b0 b1 b2 b3 b4 b5 b6 b7, bs = [b0, b1, b2, b3, b4, b5, b6, b7] := by
  match bs, h with
  | [b0, b1, b2, b3, b4, b5, b6, b7], _ => exact ⟨b0, b1, b2, b3, b4, b5, b6, b7, rfl⟩

/-- adding the nibbles of every byte -/
theorem pack_nibbles {bs : List Nat} (hl : bs.length = 8) (h : ∀ b ∈ bs, b % 16 ≤ 4 ∧ b / 16 ≤ 4) :
    ((pack bs + pack bs / 16) % 2 ^ 64) &&& pack (List.replicate 8 15) = pack (bs.map (fun b => b % 16 + b / 16)) := by
  obtain ⟨b0, b1, b2, b3, b4, b5, b6, b7, rfl⟩ := eight hl
  simp only [List.mem_cons, List.not_mem_nil, or_false, forall_eq_or_imp, forall_eq] at h
  obtain ⟨h0, h1, h2, h3, h4, h5, h6, h7⟩ := h
  have e : (pack [b0, b1, b2, b3, b4, b5, b6, b7] + pack [b0, b1, b2, b3, b4, b5, b6, b7] / 16) % 2 ^ 64 =
      pack [b0 % 16 + b0 / 16 + 16 * (b0 / 16 + b1 % 16), b1 % 16 + b1 / 16 + 16 * (b1 / 16 + b2 % 16),
        b2 % 16 + b2 / 16 + 16 * (b2 / 16 + b3 % 16), b3 % 16 + b3 / 16 + 16 * (b3 / 16 + b4 % 16),
        b4 % 16 + b4 / 16 + 16 * (b4 / 16 + b5 % 16), b5 % 16 + b5 / 16 + 16 * (b5 / 16 + b6 % 16),
        b6 % 16 + b6 / 16 + 16 * (b6 / 16 + b7 % 16), b7 % 16 + b7 / 16 + 16 * (b7 / 16)] := by
    rw [pack8, pack8]
    omega
  have hn : ∀ a c : Nat, a ≤ 8 → (a + 16 * c) &&& 15 = a := by
    intro a c ha
    rw [show (15 : Nat) = 2 ^ 4 - 1 from rfl, Nat.and_two_pow_sub_one_eq_mod]
    omega
  rw [e, show (List.replicate 8 15) = List.replicate [b0 % 16 + b0 / 16 + 16 * (b0 / 16 + b1 % 16), b1 % 16 + b1 / 16 + 16 * (b1 / 16 + b2 % 16),
        b2 % 16 + b2 / 16 + 16 * (b2 / 16 + b3 % 16), b3 % 16 + b3 / 16 + 16 * (b3 / 16 + b4 % 16),
        b4 % 16 + b4 / 16 + 16 * (b4 / 16 + b5 % 16), b5 % 16 + b5 / 16 + 16 * (b5 / 16 + b6 % 16),
        b6 % 16 + b6 / 16 + 16 * (b6 / 16 + b7 % 16), b7 % 16 + b7 / 16 + 16 * (b7 / 16)].length 15 from rfl, pack_and_const]
  · simp only [List.map_cons, List.map_nil]
    rw [hn, hn, hn, hn, hn, hn, hn, hn] <;> omega
  · intro b hb
    simp only [List.mem_cons, List.not_mem_nil, or_false] at hb
    omega
  · omega

theorem byteCounts_toNat (x : W) : (byteCounts x).toNat = pack (x.bytes.map (fun b => (byteOnes b).length)) := by
  have hl := x.bytes_length
  have hb := x.bytes_lt
  have hx := x.pack_bytes.symm
  generalize x.bytes = bs at hl hb hx
  -- first step
  have h1 : (x - ((x &&& (0xa : W) * ones4) >>> 1)).toNat = pack (bs.map halve) := by
    have e1 : (x &&& (0xa : W) * ones4).toNat = pack (bs.map (· &&& 170)) :=
      toNat_and_bytes x _ 170 (by omega) hl hb hx (by decide +kernel)
    have e2 : ((x &&& (0xa : W) * ones4) >>> 1).toNat = pack (bs.map (fun b => (b &&& 170) / 2)) := by
      rw [BitVec.toNat_ushiftRight, e1, Nat.shiftRight_eq_div_pow, pack_dvd _ (by omega), List.map_map]
      · rfl
      · intro f hf
        obtain ⟨b, _, rfl⟩ := List.mem_map.mp hf
        exact and_dvd b 170 1 rfl
    have e0 : x.toNat = pack (bs.map (fun b => b)) := by rw [hx]; simp
    rw [BitVec.toNat_sub_of_le]
    · rw [e0, e2, pack_sub _ _ _ (fun b h => halve_le b (hb b h))]
      rfl
    · rw [BitVec.le_def, e0, e2]
      exact pack_le _ _ _ (fun b h => halve_le b (hb b h))
  -- second step
  generalize hx1 : x - ((x &&& (0xa : W) * ones4) >>> 1) = x1 at h1
  have hb1 : ∀ c ∈ bs.map halve, c < 256 := by
    intro c hc
    obtain ⟨b, hb', rfl⟩ := List.mem_map.mp hc
    exact halve_lt b (hb b hb')
  have hq : ∀ b ∈ bs, quarter b < 256 := fun b h => by have := quarter_nibbles b (hb b h); omega
  have h2 : ((x1 &&& (3 : W) * ones4) + ((x1 >>> 2) &&& (3 : W) * ones4)).toNat = pack (bs.map quarter) := by
    have e1 : (x1 &&& (3 : W) * ones4).toNat = pack (bs.map (fun b => halve b &&& 51)) := by
      rw [toNat_and_bytes x1 _ 51 (by omega) (by simpa using hl) hb1 h1 (by decide +kernel), List.map_map]
      rfl
    have e2 : ((x1 >>> 2) &&& (3 : W) * ones4).toNat = pack (bs.map (fun b => (halve b &&& 204) / 4)) := by
      rw [BitVec.toNat_and, BitVec.toNat_ushiftRight, and_shift, h1, show ((3 : W) * ones4).toNat <<< 2 = pack (List.replicate (bs.map halve).length 204) from by
        rw [List.length_map, hl]; decide +kernel, pack_and_const hb1 _ (by omega), Nat.shiftRight_eq_div_pow, pack_dvd _ (by omega), List.map_map, List.map_map]
      · rfl
      · intro f hf
        obtain ⟨b, _, rfl⟩ := List.mem_map.mp hf
        exact and_dvd b 204 2 rfl
    have hlt : pack (bs.map quarter) < 2 ^ 64 := by
      have := pack_lt (fs := bs.map quarter) (by intro c hc; obtain ⟨b, hb', rfl⟩ := List.mem_map.mp hc; exact hq b hb')
      rw [List.length_map, hl] at this
      exact this
    rw [BitVec.toNat_add, e1, e2, pack_add]
    exact Nat.mod_eq_of_lt hlt
  -- third step
  unfold byteCounts
  simp only [hx1]
  generalize (x1 &&& (3 : W) * ones4) + ((x1 >>> 2) &&& (3 : W) * ones4) = x2 at h2
  rw [BitVec.toNat_and, BitVec.toNat_add, BitVec.toNat_ushiftRight, h2, show ((0x0f : W) * ones8).toNat = pack (List.replicate 8 15) from by decide +kernel,
    Nat.shiftRight_eq_div_pow, show (2 ^ 4 : Nat) = 16 from rfl, pack_nibbles (by simpa using hl) _, List.map_map]
  · congr 1
    apply List.map_congr_left
    intro b h
    exact (quarter_nibbles b (hb b h)).2.2
  · intro c hc
    obtain ⟨b, hb', rfl⟩ := List.mem_map.mp hc
    have := quarter_nibbles b (hb b hb')
    exact ⟨this.1, this.2.1⟩

/-- running sums: the product by `ones_step_8` -/
theorem sums_toNat {y : W} {cs : List Nat} (hl : cs.length = 8) (hy : y.toNat = pack cs) (hs : cs.sum < 256) :
    (y * ones8).toNat = pack ((List.range 8).map (fun j => (cs.take (j + 1)).sum)) := by
  rw [BitVec.toNat_mul, hy, show ones8.toNat = 72340172838076673 from by decide +kernel]
  obtain ⟨b0, b1, b2, b3, b4, b5, b6, b7, rfl⟩ := eight hl
  rw [show (List.range 8).map (fun j => ([b0, b1, b2, b3, b4, b5, b6, b7].take (j + 1)).sum) =
    [b0, b0 + b1, b0 + b1 + b2, b0 + b1 + b2 + b3, b0 + b1 + b2 + b3 + b4, b0 + b1 + b2 + b3 + b4 + b5,
      b0 + b1 + b2 + b3 + b4 + b5 + b6, b0 + b1 + b2 + b3 + b4 + b5 + b6 + b7] from by
      simp [List.range_succ, Nat.add_assoc]]
  simp only [List.sum_cons, List.sum_nil] at hs
  rw [pack8, pack8]
  omega

theorem bytesSum_toNat {y : W} {cs : List Nat} (hl : cs.length = 8) (hy : y.toNat = pack cs) (hs : cs.sum < 256) :
    (bytesSum y).toNat = cs.sum := by
  unfold bytesSum
  rw [BitVec.toNat_ushiftRight, sums_toNat hl hy hs, Nat.shiftRight_eq_div_pow, show (2 ^ 56 : Nat) = 256 ^ 7 from rfl, pack_div _ 7]
  · rw [← List.map_drop, show (List.range 8).drop 7 = [7] from rfl]
    simp only [List.map_cons, List.map_nil, pack]
    rw [List.take_of_length_le (by omega)]
    rfl
  · intro f hf
    obtain ⟨j, _, rfl⟩ := List.mem_map.mp hf
    have h : (cs.take (j + 1)).sum + (cs.drop (j + 1)).sum = cs.sum := by rw [← List.sum_append, List.take_append_drop]
    omega

end Util
end AC
