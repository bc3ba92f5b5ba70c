import Verif.Proofs.WordMisc
import Verif.Proofs.BitCount
import Verif.Proofs.Intrinsics
/-!
# C46: bit manipulation within a word

The portable versions of include/util.hpp, for every word. `C46_model` ties them to the meaning used in the rest of the model.
-/
namespace AC.Props
open AC

/-- byte `i` of a word -/
def byteAt (x : W) (i : Nat) : Nat := x.toNat / 256 ^ i % 256

/-- field `i` of nine bits -/
def nineAt (x : W) (i : Nat) : Nat := x.toNat / 512 ^ i % 512

theorem filter_cnt (f : Nat → Bool) (n : Nat) : ((List.range n).filter f).length = cnt f n := filter_range_length _ _

/-- C46: `popcount` is the number of ones -/
theorem C46_popcount (x : W) : (Util.popcount x).toNat = cnt x.getLsbD 64 := by
  rw [Util.popcount_spec, W.popcount_eq]

example : (Util.popcount 0xF0F0000000000001).toNat = 9 := by decide +kernel

/-- C46: every byte of `byte_counts` is the number of ones of that byte -/
theorem C46_byte_counts (x : W) (i : Nat) (hi : i < 8) : byteAt (Util.byteCounts x) i = cnt (fun j => x.getLsbD (8 * i + j)) 8 := by
  unfold byteAt
  have hl : i < (x.bytes.map (fun b => (Util.byteOnes b).length)).length := by simp [W.bytes_length, hi]
  rw [Util.byteCounts_toNat, pack_byte _ i hl, List.getElem_map, x.bytes_getElem i hi]
  · unfold Util.byteOnes
    rw [filter_cnt]
    apply cnt_congr
    intro j hj
    exact Util.byte_bit x i j hj
  · intro f hf
    obtain ⟨b, _, rfl⟩ := List.mem_map.mp hf
    have := Util.byteOnes_le b
    omega

example : byteAt (Util.byteCounts 0x00FF0300) 2 = 8 ∧ byteAt (Util.byteCounts 0x00FF0300) 1 = 2 := by decide +kernel

/-- C46: `bytes_sum` adds up the bytes, if the sum fits a byte -/
theorem C46_bytes_sum (x : W) (h : ((List.range 8).map (byteAt x)).sum < 256) :
    (Util.bytesSum x).toNat = ((List.range 8).map (byteAt x)).sum := by
  have e : x.bytes = (List.range 8).map (byteAt x) := by
    apply List.ext_getElem (by simp [W.bytes_length])
    intro i h1 h2
    rw [W.bytes_length] at h1
    rw [x.bytes_getElem i h1]
    simp [byteAt]
  rw [← e] at h ⊢
  exact Util.bytesSum_toNat x.bytes_length x.pack_bytes.symm h

example : ((List.range 8).map (byteAt 0x0102030405060708)).sum = 36 ∧ (Util.bytesSum 0x0102030405060708).toNat = 36 := by decide +kernel

/-- … and otherwise does not: 255 + 1 comes out as 1 -/
theorem C46_bytes_sum_wraps : (Util.bytesSum 0x01FF).toNat = 1 ∧ ((List.range 8).map (byteAt 0x01FF)).sum = 256 := by decide +kernel

/-- C46: `select_in_word` finds the one of rank `k`, and reads within the table -/
theorem C46_select (x : W) (k : Nat) (hk : k < cnt x.getLsbD 64) :
    ∃ p, Util.selectInWord x (BitVec.ofNat 64 k) = .ok p ∧ p < 64 ∧ IsSelect x.getLsbD k p := by
  rw [← W.popcount_eq] at hk
  exact ⟨_, Util.selectInWord_spec x hk, W.select_eq x k hk⟩

example : 4 < cnt (0xF0F0000000000001 : W).getLsbD 64 ∧ Util.selectInWord 0xF0F0000000000001 4 = .ok 55 := by decide +kernel

/-- … and its precondition is needed: a rank that is too big shifts by 64 -/
theorem C46_select_beyond (x : W) (k : Nat) (hk : cnt x.getLsbD 64 ≤ k) (hk2 : k < 128) :
    Util.selectInWord x (BitVec.ofNat 64 k) = .error .oob := by
  rw [← W.popcount_eq] at hk
  exact Util.selectInWord_beyond x hk hk2

example : cnt (5 : W).getLsbD 64 ≤ 2 := by decide +kernel

/-- C46: `reverse_bits` and `reverse_bytes` -/
theorem C46_reverse (x : W) : (∀ i, i < 64 → (Util.reverseBits x).getLsbD i = x.getLsbD (63 - i)) ∧
    (∀ i, i < 8 → byteAt (Util.reverseBytes x) i = byteAt x (7 - i)) ∧
    Util.reverseBits (Util.reverseBits x) = x ∧ Util.reverseBytes (Util.reverseBytes x) = x := by
  refine ⟨fun i hi => Util.reverseBits_bit x hi, ?_, ?_, ?_⟩
  · intro i hi
    unfold byteAt
    apply Nat.eq_of_testBit_eq
    intro j
    by_cases hj : j < 8
    · rw [Util.byte_bit _ _ _ hj, Util.byte_bit _ _ _ hj, Util.reverseBytes_bit x (by omega)]
      congr 1
      omega
    · have : ∀ y : Nat, y < 256 → y.testBit j = false := fun y hy => Nat.testBit_lt_two_pow (Nat.lt_of_lt_of_le hy (by
        have := Nat.pow_le_pow_right (n := 2) (by omega) (by omega : 8 ≤ j); exact this))
      rw [this _ (Nat.mod_lt _ (by omega)), this _ (Nat.mod_lt _ (by omega))]
  · apply BitVec.eq_of_getLsbD_eq
    intro i hi
    rw [Util.reverseBits_bit _ hi, Util.reverseBits_bit _ (by omega)]
    congr 1
    omega
  · apply BitVec.eq_of_getLsbD_eq
    intro i hi
    rw [Util.reverseBytes_bit _ hi, Util.reverseBytes_bit _ (by omega)]
    congr 1
    omega

example : Util.reverseBits 0x8000000000000003 = 0xC000000000000001 ∧ Util.reverseBytes 0x0102 = 0x0201000000000000 := by decide +kernel

/-- C46: every field of `uleq_step_9` tells whether the first word's field is at most the second's -/
theorem C46_uleq9 (x y : W) (i : Nat) (hi : i < 7) : nineAt (W.uleq9 x y) i = if nineAt x i ≤ nineAt y i then 1 else 0 :=
  Util.uleq9_fields x y hi

example : nineAt (W.uleq9 (300 + 512 * 7) (299 + 512 * 8)) 0 = 0 ∧ nineAt (W.uleq9 (300 + 512 * 7) (299 + 512 * 8)) 1 = 1 := by decide +kernel

/-- a byte as a signed number -/
def signed8 (b : Nat) : Int := if b < 128 then b else (b : Int) - 256

/-- C46, for `leq_step_8`, partial: the comparison of the bytes as signed numbers, if their difference is one too. It covers
the comparison of bytes below 128. Missing: other bytes, see `C46_leq8_false`. -/
theorem C46_leq8_partial (x y : W) (i : Nat) (hi : i < 8) (h1 : -128 ≤ signed8 (byteAt y i) - signed8 (byteAt x i))
    (h2 : signed8 (byteAt y i) - signed8 (byteAt x i) ≤ 127) :
    byteAt (Util.leqStep8 x y) i = if signed8 (byteAt x i) ≤ signed8 (byteAt y i) then 1 else 0 := by
  have h := Util.leqStep8_byte x y hi
  unfold byteAt at *
  rw [h]
  have hx : x.toNat / 256 ^ i % 256 < 256 := Nat.mod_lt _ (by omega)
  have hy : y.toNat / 256 ^ i % 256 < 256 := Nat.mod_lt _ (by omega)
  generalize x.toNat / 256 ^ i % 256 = a at *
  generalize y.toNat / 256 ^ i % 256 = b at *
  unfold signed8 at *
  split at h1 <;> split at h1 <;> split <;> split <;> omega

example : signed8 (byteAt 0xFD02 1) = -3 ∧ byteAt (Util.leqStep8 0xFD02 0x0101) 1 = 1 ∧ byteAt (Util.leqStep8 0xFD02 0x0101) 0 = 0 := by
  decide +kernel

/-- what `leq_step_8` computes for all bytes: whether the difference, reduced to a signed byte, is not negative -/
theorem C46_leq8_exact (x y : W) (i : Nat) (hi : i < 8) :
    byteAt (Util.leqStep8 x y) i = if 0 ≤ Int.bmod ((byteAt y i : Int) - byteAt x i) 256 then 1 else 0 := by
  have h := Util.leqStep8_byte x y hi
  unfold byteAt at *
  rw [h]
  have hx : x.toNat / 256 ^ i % 256 < 256 := Nat.mod_lt _ (by omega)
  have hy : y.toNat / 256 ^ i % 256 < 256 := Nat.mod_lt _ (by omega)
  generalize x.toNat / 256 ^ i % 256 = a at *
  generalize y.toNat / 256 ^ i % 256 = b at *
  unfold Int.bmod
  simp only
  split <;> split <;> split <;> omega

/-- it is no comparison of bytes, signed or not: -128 and 0 -/
theorem C46_leq8_false : byteAt (Util.leqStep8 0x80 0) 0 = 0 ∧ signed8 (byteAt 0x80 0) ≤ signed8 (byteAt 0 0) ∧
    byteAt (Util.leqStep8 0xFF 0) 0 = 1 ∧ ¬ byteAt 0xFF 0 ≤ byteAt 0 0 := by decide +kernel

/-- C46: `msb` and `lsb` of a word that is not zero -/
theorem C46_msb_lsb (x : W) (hx : x ≠ 0) : x.getLsbD (Util.msb x) = true ∧ (∀ i, Util.msb x < i → x.getLsbD i = false) ∧
    x.getLsbD (Util.lsb x) = true ∧ (∀ i, i < Util.lsb x → x.getLsbD i = false) :=
  ⟨(Util.msb_spec hx).2.1, (Util.msb_spec hx).2.2.1, (Util.lsb_spec hx).2.1, (Util.lsb_spec hx).2.2⟩

example : (0x50 : W) ≠ 0 ∧ Util.msb 0x50 = 6 ∧ Util.lsb 0x50 = 4 := by decide +kernel

/-- C46: `floor_log2` and `ceil_log2`: the greatest power not above and the least not below -/
theorem C46_logs (x : W) (hx : 1 ≤ x.toNat) : 2 ^ Util.floorLog2 x ≤ x.toNat ∧ x.toNat < 2 ^ (Util.floorLog2 x + 1) ∧
    x.toNat ≤ 2 ^ Util.ceilLog2 x ∧ (∀ k, x.toNat ≤ 2 ^ k → Util.ceilLog2 x ≤ k) := by
  have key : ∀ y : W, y ≠ 0 → 2 ^ Util.msb y ≤ y.toNat ∧ y.toNat < 2 ^ (Util.msb y + 1) := fun y hy => (Util.msb_spec hy).2.2.2
  unfold Util.floorLog2 Util.ceilLog2
  by_cases h : x.toNat > 1
  · rw [if_pos h, if_pos h]
    have hx0 : x ≠ 0 := by intro h0; subst h0; simp at h
    have e : (x - 1).toNat = x.toNat - 1 := by
      rw [BitVec.toNat_sub_of_le (by rw [BitVec.le_def]; simpa using hx)]
      rfl
    have hx1 : x - 1 ≠ 0 := by
      intro h0
      rw [h0] at e
      simp at e
      omega
    have k1 := key x hx0
    have k2 := key (x - 1) hx1
    rw [e] at k2
    refine ⟨k1.1, k1.2, by omega, ?_⟩
    intro k hk
    apply Nat.lt_of_not_le
    intro hlt
    have := Nat.pow_le_pow_right (n := 2) (by omega) hlt
    omega
  · rw [if_neg h, if_neg h]
    simp
    omega

example : Util.floorLog2 9 = 3 ∧ Util.ceilLog2 9 = 4 ∧ Util.ceilLog2 8 = 3 ∧ Util.ceilLog2 1 = 0 := by decide +kernel

/-- C46: the operations by their meaning, used by the rest of the model, are those of include/util.hpp -/
theorem C46_model (x : W) : x.popcount = (Util.popcount x).toNat ∧
    (∀ k, k < x.popcount → Util.selectInWord x (BitVec.ofNat 64 k) = .ok (x.select k)) ∧
    (x ≠ 0 → x.lsb = some (Util.lsb x) ∧ x.msb = some (Util.msb x) ∧ msbNat x.toNat = Util.msb x) ∧
    ceilLog2 x.toNat = Util.ceilLog2 x := by
  have hm : ∀ y : W, y ≠ 0 → msbNat y.toNat = Util.msb y := by
    intro y hy
    have h := (Util.msb_spec hy).2.2.2
    unfold msbNat
    exact (Nat.log2_eq_iff (by omega)).mpr h
  refine ⟨(Util.popcount_spec x).symm, fun k hk => Util.selectInWord_spec x hk, ?_, ?_⟩
  · intro hx
    have hl := Util.lsb_spec hx
    have hM := Util.msb_spec hx
    have mem : ∀ i, i ∈ x.ones ↔ i < 64 ∧ x.getLsbD i = true := by
      intro i; unfold W.ones; rw [List.mem_filter, List.mem_range]
    have sorted : x.ones.Pairwise (· < ·) := List.Pairwise.filter _ (List.pairwise_lt_range)
    refine ⟨?_, ?_, hm x hx⟩
    · unfold W.lsb
      cases ho : x.ones with
      | nil => have := (mem (Util.lsb x)).mpr ⟨hl.1, hl.2.1⟩
               rw [ho] at this; cases this
      | cons a t =>
          rw [List.head?_cons]
          have h1 := (mem (Util.lsb x)).mpr ⟨hl.1, hl.2.1⟩
          have h2 := (mem a).mp (by rw [ho]; exact List.mem_cons_self ..)
          rw [ho] at h1 sorted
          rcases List.mem_cons.mp h1 with h3 | h3
          · rw [h3]
          · have h4 := (List.pairwise_cons.mp sorted).1 _ h3
            have h5 := hl.2.2 a h4
            rw [h2.2] at h5; cases h5
    · unfold W.msb
      have h1 := (mem (Util.msb x)).mpr ⟨hM.1, hM.2.1⟩
      obtain ⟨a, ha⟩ : ∃ a, x.ones.getLast? = some a := by
        cases h : x.ones.getLast? with
        | none => rw [List.getLast?_eq_none_iff] at h; rw [h] at h1; cases h1
        | some a => exact ⟨a, rfl⟩
      rw [ha]
      obtain ⟨t, ht⟩ := List.getLast?_eq_some_iff.mp ha
      have h2 := (mem a).mp (by rw [ht]; simp)
      rw [ht] at h1 sorted
      rcases List.mem_append.mp h1 with h3 | h3
      · have h4 := (List.pairwise_append.mp sorted).2.2 _ h3 a (by simp)
        have h5 := hM.2.2.1 a h4
        rw [h2.2] at h5; cases h5
      · simp at h3; rw [h3]
  · unfold ceilLog2 Util.ceilLog2
    by_cases h : x.toNat > 1
    · rw [if_pos h, if_pos h]
      have e : (x - 1).toNat = x.toNat - 1 := by
        rw [BitVec.toNat_sub_of_le (by rw [BitVec.le_def]; show 1 ≤ x.toNat; omega)]
        rfl
      have hx1 : x - 1 ≠ 0 := by
        intro h0
        rw [h0] at e
        simp at e
        omega
      rw [← e, hm _ hx1]
    · rw [if_neg h, if_neg h]

/-! ## C64: the same results in every configuration of the build -/

/-- C64: whatever options the library is compiled with, a population count is the number of ones, a selection of a rank
below it gives the position of the one of that rank, and the reversals reverse -/
theorem C64_builds (intrinsics usePdep : Bool) (x : W) :
    Util.popcountOf intrinsics x = cnt x.getLsbD 64 ∧
    (∀ k, k < cnt x.getLsbD 64 →
      ∃ p, Util.selectInWordOf intrinsics usePdep x k = .ok p ∧ p < 64 ∧ IsSelect x.getLsbD k p) ∧
    (∀ i, i < 64 → (Util.reverseBitsOf intrinsics x).getLsbD i = x.getLsbD (63 - i)) ∧
    (∀ i, i < 8 → byteAt (Util.reverseBytesOf intrinsics x) i = byteAt x (7 - i)) := by
  refine ⟨?_, ?_, ?_, ?_⟩
  · rw [Util.popcountOf_eq, W.popcount_eq]
  · intro k hk
    rw [← W.popcount_eq] at hk
    exact ⟨_, Util.selectInWordOf_eq _ _ x hk, W.select_eq x k hk⟩
  · intro i hi
    rw [Util.reverseBitsOf_eq]
    exact (C46_reverse x).1 i hi
  · intro i hi
    unfold Util.reverseBytesOf
    rw [Util.byteswap64_eq, ite_self]
    exact (C46_reverse x).2.1 i hi

example : 4 < cnt (0xF0F0000000000001 : W).getLsbD 64 ∧ Util.selectInWordOf true true 0xF0F0000000000001 4 = .ok 55 ∧
    Util.selectInWordOf true false 0xF0F0000000000001 4 = .ok 55 ∧ Util.popcountOf true 0xF0F0000000000001 = 9 ∧
    Util.reverseBytesOf true 0x0102 = 0x0201000000000000 := by decide +kernel

/-- C64: the operations by their meaning, which the rest of the model uses, are those of every configuration -/
theorem C64_model (intrinsics usePdep : Bool) (x : W) : Util.popcountOf intrinsics x = x.popcount ∧
    (∀ k, k < x.popcount → Util.selectInWordOf intrinsics usePdep x k = .ok (x.select k)) ∧
    Util.reverseBitsOf intrinsics x = BVB.reverseWord x := by
  refine ⟨Util.popcountOf_eq _ x, fun k hk => Util.selectInWordOf_eq _ _ x hk, ?_⟩
  rw [Util.reverseBitsOf_eq]
  apply BitVec.eq_of_getLsbD_eq
  intro i hi
  rw [(C46_reverse x).1 i hi]
  unfold BVB.reverseWord
  rw [BitVec.getLsbD_reverse, BitVec.getMsbD_eq_getLsbD]
  simp [hi]

example : 1 < (0x50 : W).popcount ∧ Util.selectInWordOf false true 0x50 1 = .ok ((0x50 : W).select 1) := by decide +kernel

/-- … and the asserted precondition of a selection matters: beyond it the configurations differ. With `USE_PDEP` the
result is 64, without it the computation shifts by 64. -/
theorem C64_beyond (x : W) (k : Nat) (hk : cnt x.getLsbD 64 ≤ k) (hk2 : k < 64) (b : Bool) :
    Util.selectInWordOf b true x k = .ok 64 ∧ Util.selectInWord x (BitVec.ofNat 64 k) = .error .oob := by
  refine ⟨?_, C46_select_beyond x k hk (by omega)⟩
  rw [← W.popcount_eq] at hk
  unfold Util.selectInWordOf
  rw [if_pos rfl]
  exact Util.selectPdep_beyond x hk hk2

example : cnt (5 : W).getLsbD 64 ≤ 2 ∧ Util.selectPdep 5 2 = .ok 64 := by decide +kernel

end AC.Props
