import Verif.Model.BpMatch
import Verif.Proofs.Excess
import Verif.Proofs.WordMisc
import Verif.Proofs.WordSelect
/-!
# Matching parentheses in a word
-/
namespace AC
namespace BP
open Util

/-- `n` is the first position where `e` plus the excess of the prefix is no longer positive -/
structure First (f : Nat → Bool) (e : Int) (N n : Nat) : Prop where
  le : n ≤ N
  hit : e + exc f n ≤ 0
  before : ∀ k, k < n → 0 < e + exc f k

theorem First.zero {f : Nat → Bool} {e : Int} {N n : Nat} (h : First f e N n) (he : 0 < e) : 1 ≤ n ∧ e + exc f n = 0 := by
  match n, h with
  | 0, h => have := h.hit; rw [exc_zero] at this; omega
  | n + 1, h =>
      refine ⟨by omega, ?_⟩
      have h1 := h.before n (by omega)
      have h2 := h.hit
      rw [exc_succ] at h2 ⊢
      split at h2
      · omega
      · rename_i hf; rw [if_neg hf]; omega

theorem first_or (f : Nat → Bool) (e : Int) (N : Nat) : (∃ n, First f e N n) ∨ ∀ k, k ≤ N → 0 < e + exc f k := by
  induction N with
  | zero =>
      by_cases h : e + exc f 0 ≤ 0
      · exact Or.inl ⟨0, Nat.le_refl _, h, fun k hk => by omega⟩
      · right; intro k hk; rw [show k = 0 by omega]; omega
  | succ N ih =>
      rcases ih with ⟨n, h⟩ | ih
      · exact Or.inl ⟨n, by have := h.le; omega, h.hit, h.before⟩
      · by_cases h : e + exc f (N + 1) ≤ 0
        · exact Or.inl ⟨N + 1, Nat.le_refl _, h, fun k hk => ih k (by omega)⟩
        · right; intro k hk
          by_cases hk2 : k ≤ N
          · exact ih k hk2
          · rw [show k = N + 1 by omega]; omega

theorem lsb_some {x : W} {p : Nat} (hp : p < 64) (h : x.getLsbD p = true) (hb : ∀ q, q < p → x.getLsbD q = false) : x.lsb = some p := by
  unfold W.lsb W.ones
  rw [List.head?_filter]
  cases e : (List.range 64).find? x.getLsbD with
  | none => rw [find_range_none e p hp] at h; cases h
  | some q =>
      obtain ⟨h1, h2, h3⟩ := find_range_some e
      rcases Nat.lt_trichotomy p q with h4 | h4 | h4
      · rw [h3 p h4] at h; cases h
      · rw [h4]
      · rw [hb q h4] at h2; cases h2

theorem lsb_none {x : W} (h : ∀ q, q < 64 → x.getLsbD q = false) : x.lsb = none := by
  unfold W.lsb W.ones
  rw [List.head?_filter]
  cases e : (List.range 64).find? x.getLsbD with
  | none => rfl
  | some q =>
      obtain ⟨h1, h2, h3⟩ := find_range_some e
      rw [h q h1] at h2; cases h2

theorem bit_of_byte (x : W) (q : Nat) : x.getLsbD q = (x.toNat / 256 ^ (q / 8) % 256).testBit (q % 8) := by
  rw [byte_bit x (q / 8) (q % 8) (Nat.mod_lt _ (by omega)), Nat.div_add_mod]

theorem byte_ext {x : W} {i m : Nat} (hm : m < 256) (h : ∀ j, j < 8 → x.getLsbD (8 * i + j) = m.testBit j) :
    x.toNat / 256 ^ i % 256 = m := by
  apply Nat.eq_of_testBit_eq
  intro j
  by_cases hj : j < 8
  · rw [byte_bit x i j hj, h j hj]
  · have a : ∀ n, n < 256 → n.testBit j = false := by
      intro n hn
      apply Nat.testBit_lt_two_pow
      exact Nat.lt_of_lt_of_le hn (by rw [show 256 = 2 ^ 8 from rfl]; exact Nat.pow_le_pow_right (by omega) (by omega))
    rw [a _ (Nat.mod_lt _ (by omega)), a _ hm]

/-! ## Eight entries in a word -/

theorem gather_bits (f : Nat → Nat) (hf : ∀ i, f i < 256) (k j : Nat) (hk : k < 8) (hj : j < 8) : ∀ n, n ≤ 8 →
    ((List.range n).foldl (fun a i => a ||| (BitVec.ofNat 64 (f i) <<< (i * 8))) (0 : W)).getLsbD (8 * k + j) =
      (decide (k < n) && (f k).testBit j) := by
  intro n
  induction n with
  | zero => intro _; simp
  | succ n ih =>
      intro hn
      rw [List.range_succ, List.foldl_append, List.foldl_cons, List.foldl_nil, BitVec.getLsbD_or, ih (by omega),
        BitVec.getLsbD_shiftLeft, BitVec.getLsbD_ofNat]
      have hbig : ∀ m i, m < 256 → 8 ≤ i → m.testBit i = false := by
        intro m i hm hi
        apply Nat.testBit_lt_two_pow
        exact Nat.lt_of_lt_of_le hm (by rw [show 256 = 2 ^ 8 from rfl]; exact Nat.pow_le_pow_right (by omega) (by omega))
      rcases Nat.lt_trichotomy k n with h | h | h
      · have h1 : 8 * k + j < n * 8 := by omega
        simp [h1, h, Nat.lt_succ_of_lt h]
      · subst h
        have h1 : ¬ 8 * k + j < k * 8 := by omega
        have h2 : 8 * k + j - k * 8 = j := by omega
        have h3 : 8 * k + j < 64 := by omega
        have h4 : j < 64 := by omega
        simp [h1, h2, h3, h4]
      · have h1 : 8 ≤ 8 * k + j - n * 8 := by omega
        have h2 : ¬ k < n := by omega
        have h3 : ¬ k < n + 1 := by omega
        rw [hbig _ _ (hf n) h1]
        simp [h2, h3]

theorem gather_byte (f : Nat → Nat) (hf : ∀ i, f i < 256) (k : Nat) (hk : k < 8) : (gather f).toNat / 256 ^ k % 256 = f k := by
  apply byte_ext (hf k)
  intro j hj
  unfold gather
  rw [gather_bits f hf k j hk hj 8 (Nat.le_refl _)]
  simp [hk]

/-! ## The first byte with a match -/

theorem scan {f : Nat → Bool} {e : Int} {cum mins : W} {m : Nat → Nat} (he1 : 1 ≤ e) (he2 : e ≤ 64)
    (hcum : ∀ i, i < 8 → (∀ j, j ≤ i → 0 ≤ e + exc f (8 * j) ∧ e + exc f (8 * j) < 256) →
      ((cum.toNat / 256 ^ i % 256 : Nat) : Int) = e + exc f (8 * i))
    (hmins : ∀ i, i < 8 → mins.toNat / 256 ^ i % 256 = m i) (hm : ∀ i, i < 8 → m i ≤ 8)
    (hmin : ∀ i, i < 8 → ∀ n, n ≤ 8 → -(m i : Int) ≤ exc (fun j => f (8 * i + j)) n) :
    (∃ i, i < 8 ∧ W.lsb (leqStep8 cum mins) = some (8 * i) ∧ 1 ≤ e + exc f (8 * i) ∧ e + exc f (8 * i) ≤ m i ∧
      ((cum.toNat / 256 ^ i % 256 : Nat) : Int) = e + exc f (8 * i) ∧ ∀ k, k ≤ 8 * i → 0 < e + exc f k) ∨
    (W.lsb (leqStep8 cum mins) = none ∧ ∀ k, k ≤ 64 → 0 < e + exc f k) := by
  -- as long as no byte has a match, the excess stays positive
  have pos : ∀ i, i ≤ 8 → (∀ j, j < i → (m j : Int) < e + exc f (8 * j)) → ∀ k, k ≤ 8 * i → 0 < e + exc f k := by
    intro i
    induction i with
    | zero => intro _ _ k hk; rw [show k = 0 by omega, exc_zero]; omega
    | succ i ih =>
        intro hi hj k hk
        by_cases hk2 : k ≤ 8 * i
        · exact ih (by omega) (fun j h => hj j (by omega)) k hk2
        · obtain ⟨n, rfl⟩ := Nat.exists_eq_add_of_le (show 8 * i ≤ k by omega)
          rw [exc_add]
          have := hmin i (by omega) n (by omega)
          have := hj i (by omega)
          omega
  have up : ∀ i, i ≤ 8 → e + exc f (8 * i) ≤ 64 + 8 * i := by
    intro i _
    have := exc_le f (8 * i)
    omega
  have right : ∀ i, i < 8 → (∀ j, j < i → (m j : Int) < e + exc f (8 * j)) →
      ((cum.toNat / 256 ^ i % 256 : Nat) : Int) = e + exc f (8 * i) := by
    intro i hi hj
    apply hcum i hi
    intro j h
    have := pos i (by omega) hj (8 * j) (by omega)
    have := up j (by omega)
    omega
  have leq : ∀ i, i < 8 → (∀ j, j < i → (m j : Int) < e + exc f (8 * j)) →
      (leqStep8 cum mins).toNat / 256 ^ i % 256 = if e + exc f (8 * i) ≤ m i then 1 else 0 := by
    intro i hi hj
    rw [leqStep8_byte _ _ hi, hmins i hi]
    have h1 := right i hi hj
    have h2 := hm i hi
    have h3 := up i (by omega)
    have h4 := pos i (by omega) hj (8 * i) (by omega)
    generalize cum.toNat / 256 ^ i % 256 = c at h1
    split <;> split <;> omega
  by_cases hex : ∃ i, i < 8 ∧ e + exc f (8 * i) ≤ m i ∧ ∀ j, j < i → (m j : Int) < e + exc f (8 * j)
  · obtain ⟨i, hi, h1, h2⟩ := hex
    left
    refine ⟨i, hi, ?_, ?_, h1, right i hi h2, pos i (by omega) h2⟩
    · apply lsb_some (by omega)
      · have := leq i hi h2
        rw [if_pos h1] at this
        rw [bit_of_byte, show 8 * i / 8 = i by omega, this, show 8 * i % 8 = 0 by omega]
        rfl
      · intro q hq
        have h3 := h2 (q / 8) (by omega)
        have := leq (q / 8) (by omega) (fun j h => h2 j (by omega))
        rw [if_neg (by omega)] at this
        rw [bit_of_byte, this]
        exact Nat.zero_testBit _
    · have := pos i (by omega) h2 (8 * i) (by omega)
      omega
  · right
    have hall : ∀ i, i ≤ 8 → ∀ j, j < i → (m j : Int) < e + exc f (8 * j) := by
      intro i
      induction i with
      | zero => intro _ j h; omega
      | succ i ih =>
          intro hi j hj
          by_cases h : j < i
          · exact ih (by omega) j h
          · rw [show j = i by omega]
            apply Int.not_le.mp
            intro hle
            exact hex ⟨i, by omega, hle, ih (by omega)⟩
    refine ⟨lsb_none ?_, pos 8 (by omega) (hall 8 (by omega))⟩
    intro q hq
    have h3 := hall 8 (by omega) (q / 8) (by omega)
    have := leq (q / 8) (by omega) (fun j h => hall 8 (by omega) j (by omega))
    rw [if_neg (by omega)] at this
    rw [bit_of_byte, this]
    exact Nat.zero_testBit _

/-- … and within that byte -/
theorem scan_first {f : Nat → Bool} {e : Int} {i p : Nat} (hi : i < 8) (hb : ∀ k, k ≤ 8 * i → 0 < e + exc f k) (hp : p ≤ 8)
    (h : exc (fun j => f (8 * i + j)) p = -(e + exc f (8 * i)))
    (hlt : ∀ k, k < p → -(e + exc f (8 * i)) < exc (fun j => f (8 * i + j)) k) : First f e 64 (8 * i + p) := by
  refine ⟨by omega, by rw [exc_add]; omega, ?_⟩
  intro k hk
  by_cases hk2 : k ≤ 8 * i
  · exact hb k hk2
  · obtain ⟨n, rfl⟩ := Nat.exists_eq_add_of_le (show 8 * i ≤ k by omega)
    rw [exc_add]
    have := hlt n (by omega)
    omega

/-! ## The cumulative sums -/

theorem ofInt_word (x : W) : x = BitVec.ofInt 64 (x.toNat : Int) := by
  apply BitVec.eq_of_toNat_eq
  have := x.isLt
  rw [BitVec.toNat_ofInt]
  omega

theorem cum_eq (y : W) (e : Int) : (BitVec.ofInt 64 e + (((2 : W) * y - (8 : W) * ones8) <<< 8)) * ones8 =
    BitVec.ofInt 64 ((e + (2 * (y.toNat : Int) - 8 * 0x0101010101010101) * 256) * 0x0101010101010101) := by
  rw [BitVec.shiftLeft_eq_mul_twoPow, BitVec.sub_eq_add_neg, BitVec.ofInt_mul, BitVec.ofInt_add, BitVec.ofInt_mul, Int.sub_eq_add_neg,
    BitVec.ofInt_add, BitVec.ofInt_mul, ← ofInt_word y]
  rfl

theorem cum_eq' (y : W) (e : Int) : (BitVec.ofInt 64 e - (((2 : W) * y - (8 : W) * ones8) <<< 8)) * ones8 =
    BitVec.ofInt 64 ((e - (2 * (y.toNat : Int) - 8 * 0x0101010101010101) * 256) * 0x0101010101010101) := by
  rw [BitVec.shiftLeft_eq_mul_twoPow, BitVec.sub_eq_add_neg, BitVec.sub_eq_add_neg, BitVec.ofInt_mul, @Int.sub_eq_add_neg e,
    BitVec.ofInt_add, BitVec.ofInt_neg, BitVec.ofInt_mul, Int.sub_eq_add_neg,
    BitVec.ofInt_add, BitVec.ofInt_mul, ← ofInt_word y]
  rfl

theorem sums_byte {d : Nat → Int} {S : Nat → Int} {X : Nat} {K : Int} (e : Int) (h0 : S 0 = e) (hS : ∀ i, S (i + 1) = S i + d i)
    (hX : (X : Int) = (e + (d 0 + 256 * d 1 + 256 ^ 2 * d 2 + 256 ^ 3 * d 3 + 256 ^ 4 * d 4 + 256 ^ 5 * d 5 + 256 ^ 6 * d 6 +
      256 ^ 7 * d 7) * 256) * 0x0101010101010101 + 2 ^ 64 * K) (i : Nat) (hi : i < 8)
    (h : ∀ j, j ≤ i → 0 ≤ S j ∧ S j < 256) : ((X / 256 ^ i % 256 : Nat) : Int) = S i := by
  have e0 : S 1 = S 0 + d 0 := hS 0
  have e1 : S 2 = S 1 + d 1 := hS 1
  have e2 : S 3 = S 2 + d 2 := hS 2
  have e3 : S 4 = S 3 + d 3 := hS 3
  have e4 : S 5 = S 4 + d 4 := hS 4
  have e5 : S 6 = S 5 + d 5 := hS 5
  have e6 : S 7 = S 6 + d 6 := hS 6
  obtain ⟨K', hK⟩ : ∃ K' : Int, (X : Int) = S 0 + 256 * S 1 + 256 ^ 2 * S 2 + 256 ^ 3 * S 3 + 256 ^ 4 * S 4 + 256 ^ 5 * S 5 +
      256 ^ 6 * S 6 + 256 ^ 7 * S 7 + 2 ^ 64 * K' :=
    ⟨K + 1 * d 0 + 257 * d 1 + 65793 * d 2 + 16843009 * d 3 + 4311810305 * d 4 + 1103823438081 * d 5 + 282578800148737 * d 6 + 72340172838076673 * d 7, by omega⟩
  clear hX e0 e1 e2 e3 e4 e5 e6
  match i, hi with
  | 0, _ =>
      have := h 0 (by omega)
      omega
  | 1, _ =>
      have := h 0 (by omega); have := h 1 (by omega)
      omega
  | 2, _ =>
      have := h 0 (by omega); have := h 1 (by omega); have := h 2 (by omega)
      omega
  | 3, _ =>
      have := h 0 (by omega); have := h 1 (by omega); have := h 2 (by omega); have := h 3 (by omega)
      omega
  | 4, _ =>
      have := h 0 (by omega); have := h 1 (by omega); have := h 2 (by omega); have := h 3 (by omega); have := h 4 (by omega)
      omega
  | 5, _ =>
      have := h 0 (by omega); have := h 1 (by omega); have := h 2 (by omega); have := h 3 (by omega); have := h 4 (by omega); have := h 5 (by omega)
      omega
  | 6, _ =>
      have := h 0 (by omega); have := h 1 (by omega); have := h 2 (by omega); have := h 3 (by omega); have := h 4 (by omega); have := h 5 (by omega); have := h 6 (by omega)
      omega
  | 7, _ =>
      have := h 0 (by omega); have := h 1 (by omega); have := h 2 (by omega); have := h 3 (by omega); have := h 4 (by omega); have := h 5 (by omega); have := h 6 (by omega); have := h 7 (by omega)
      omega

theorem word_bytes (y : W) : (y.toNat : Int) = (y.toNat / 256 ^ 0 % 256 : Nat) + 256 * (y.toNat / 256 ^ 1 % 256 : Nat) +
    256 ^ 2 * (y.toNat / 256 ^ 2 % 256 : Nat) + 256 ^ 3 * (y.toNat / 256 ^ 3 % 256 : Nat) + 256 ^ 4 * (y.toNat / 256 ^ 4 % 256 : Nat) +
    256 ^ 5 * (y.toNat / 256 ^ 5 % 256 : Nat) + 256 ^ 6 * (y.toNat / 256 ^ 6 % 256 : Nat) + 256 ^ 7 * (y.toNat / 256 ^ 7 % 256 : Nat) := by
  have := y.isLt
  generalize y.toNat = x at this
  omega

/-- the bytes of the cumulative sum, given what a byte of the counts says about the excess of a byte -/
theorem cum_byte {y : W} {f : Nat → Bool} {e : Int} (sgn : Bool)
    (hy : ∀ i, i < 8 → exc (fun j => f (8 * i + j)) 8 = (if sgn then 1 else -1) * (2 * ((y.toNat / 256 ^ i % 256 : Nat) : Int) - 8))
    {cum : W} (hc : cum = BitVec.ofInt 64 ((e + (if sgn then 1 else -1) * ((2 * (y.toNat : Int) - 8 * 0x0101010101010101) * 256)) * 0x0101010101010101))
    (i : Nat) (hi : i < 8) (h : ∀ j, j ≤ i → 0 ≤ e + exc f (8 * j) ∧ e + exc f (8 * j) < 256) :
    ((cum.toNat / 256 ^ i % 256 : Nat) : Int) = e + exc f (8 * i) := by
  have y0 := hy 0 (by omega)
  have y1 := hy 1 (by omega)
  have y2 := hy 2 (by omega)
  have y3 := hy 3 (by omega)
  have y4 := hy 4 (by omega)
  have y5 := hy 5 (by omega)
  have y6 := hy 6 (by omega)
  have y7 := hy 7 (by omega)
  have hw := word_bytes y
  have hX : (cum.toNat : Int) = ((e + (if sgn then 1 else -1) * ((2 * (y.toNat : Int) - 8 * 0x0101010101010101) * 256)) * 0x0101010101010101) % 2 ^ 64 := by
    rw [hc, BitVec.toNat_ofInt]
    generalize ((e + (if sgn then 1 else -1) * ((2 * (y.toNat : Int) - 8 * 0x0101010101010101) * 256)) * 0x0101010101010101) = z
    omega
  have hdiv := Int.emod_add_mul_ediv ((e + (if sgn then 1 else -1) * ((2 * (y.toNat : Int) - 8 * 0x0101010101010101) * 256)) * 0x0101010101010101) (2 ^ 64)
  rw [← hX] at hdiv
  generalize ((e + (if sgn then 1 else -1) * ((2 * (y.toNat : Int) - 8 * 0x0101010101010101) * 256)) * 0x0101010101010101) / 2 ^ 64 = q at hdiv
  generalize y.toNat / 256 ^ 0 % 256 = b0 at y0 hw
  generalize y.toNat / 256 ^ 1 % 256 = b1 at y1 hw
  generalize y.toNat / 256 ^ 2 % 256 = b2 at y2 hw
  generalize y.toNat / 256 ^ 3 % 256 = b3 at y3 hw
  generalize y.toNat / 256 ^ 4 % 256 = b4 at y4 hw
  generalize y.toNat / 256 ^ 5 % 256 = b5 at y5 hw
  generalize y.toNat / 256 ^ 6 % 256 = b6 at y6 hw
  generalize y.toNat / 256 ^ 7 % 256 = b7 at y7 hw
  generalize (y.toNat : Int) = yy at hw hdiv
  apply sums_byte (d := fun i => exc (fun j => f (8 * i + j)) 8) (S := fun i => e + exc f (8 * i)) (K := -q) e (by rw [exc_zero]; omega) ?_ ?_ i hi h
  · intro i
    show e + exc f (8 * i + 8) = _
    rw [exc_add]; omega
  · rw [y0, y1, y2, y3, y4, y5, y6, y7]
    cases sgn
    · simp only [Bool.false_eq_true, if_false] at hdiv ⊢
      omega
    · simp only [if_true] at hdiv ⊢
      omega

theorem byteCounts_byte (x : W) (i : Nat) (hi : i < 8) : (byteCounts x).toNat / 256 ^ i % 256 = cnt (fun j => x.getLsbD (8 * i + j)) 8 := by
  have hl : i < (x.bytes.map (fun b => (byteOnes b).length)).length := by simp [W.bytes_length, hi]
  rw [byteCounts_toNat, pack_byte _ i hl, List.getElem_map, x.bytes_getElem i hi]
  · unfold byteOnes
    rw [filter_range_length]
    apply cnt_congr
    intro j hj
    exact byte_bit x i j hj
  · intro f hf
    obtain ⟨b, _, rfl⟩ := List.mem_map.mp hf
    have := byteOnes_le b
    omega

/-! ## The tables -/

theorem fwdPos_all : ∀ c : Fin 256, ∀ e : Fin 9, 1 ≤ e.val → e.val ≤ (ExcessTables.fwd c).min →
    (ExcessTables.fwdPos c)[e.val]? = some ((ExcessTables.fwdPos c).getD e 0) ∧
    1 ≤ (ExcessTables.fwdPos c).getD e 0 ∧ (ExcessTables.fwdPos c).getD e 0 ≤ 8 ∧
    exc c.val.testBit ((ExcessTables.fwdPos c).getD e 0) = -(e.val : Int) ∧
    ∀ k : Fin 8, k.val < (ExcessTables.fwdPos c).getD e 0 → -(e.val : Int) < exc c.val.testBit k := by decide +kernel

theorem bwd_all : ∀ c : Fin 256, ExcessTables.bwdMin c ≤ 8 ∧
    (∀ n : Fin 9, -(ExcessTables.bwdMin c : Int) ≤ exc (fun j => !c.val.testBit (7 - j)) n) ∧ ∀ e : Fin 9, 1 ≤ e.val → e.val ≤ ExcessTables.bwdMin c →
    (ExcessTables.bwdPos c)[e.val]? = some ((ExcessTables.bwdPos c).getD e 0) ∧
    1 ≤ (ExcessTables.bwdPos c).getD e 0 ∧ (ExcessTables.bwdPos c).getD e 0 ≤ 8 ∧
    exc (fun j => !c.val.testBit (7 - j)) ((ExcessTables.bwdPos c).getD e 0) = -(e.val : Int) ∧
    ∀ k : Fin 8, k.val < (ExcessTables.bwdPos c).getD e 0 → -(e.val : Int) < exc (fun j => !c.val.testBit (7 - j)) k := by decide +kernel

theorem and_byte (x : W) (s : Nat) : ((x >>> s) &&& 0xFF).toNat < 256 := by
  rw [BitVec.toNat_and]
  exact Nat.lt_of_le_of_lt Nat.and_le_right (by decide)

theorem and_byte_eq (x : W) (i : Nat) : ((x >>> (8 * i)) &&& 0xFF).toNat = x.toNat / 256 ^ i % 256 := by
  rw [BitVec.toNat_and, BitVec.toNat_ushiftRight, show (0xFF : W).toNat = 2 ^ 8 - 1 from rfl, Nat.and_two_pow_sub_one_eq_mod,
    Nat.shiftRight_eq_div_pow, Nat.pow_mul]

theorem closeCum (w : W) (e : Int) (i : Nat) (hi : i < 8)
    (h : ∀ j, j ≤ i → 0 ≤ e + exc w.getLsbD (8 * j) ∧ e + exc w.getLsbD (8 * j) < 256) :
    (((sumsUp (byteCounts w) e).toNat / 256 ^ i % 256 : Nat) : Int) =
      e + exc w.getLsbD (8 * i) := by
  refine cum_byte (y := byteCounts w) true ?_ ?_ i hi h
  · intro i hi
    rw [byteCounts_byte w i hi, if_pos rfl, Int.one_mul]
    rfl
  · unfold sumsUp
    rw [cum_eq, if_pos rfl, Int.one_mul]

theorem openCum (w : W) (e : Int) (i : Nat) (hi : i < 8)
    (h : ∀ j, j ≤ i → 0 ≤ e + exc (fun j => !w.getLsbD (63 - j)) (8 * j) ∧ e + exc (fun j => !w.getLsbD (63 - j)) (8 * j) < 256) :
    (((sumsDown (byteCounts w) e).toNat / 256 ^ i % 256 : Nat) : Int) =
      e + exc (fun j => !w.getLsbD (63 - j)) (8 * i) := by
  have hrev : ∀ i, i < 8 → (reverseBytes (byteCounts w)).toNat / 256 ^ i % 256 = (byteCounts w).toNat / 256 ^ (7 - i) % 256 := by
    intro i hi
    apply byte_ext (Nat.mod_lt _ (by omega))
    intro j hj
    rw [reverseBytes_bit _ (by omega), byte_bit _ _ _ hj]
    congr 1; omega
  refine cum_byte (y := reverseBytes (byteCounts w)) false ?_ ?_ i hi h
  · intro i hi
    rw [hrev i hi, byteCounts_byte w (7 - i) (by omega)]
    unfold exc
    have := cnt_not (fun j => w.getLsbD (63 - (8 * i + j))) 8
    have h3 : cnt (fun j => w.getLsbD (63 - (8 * i + j))) 8 = cnt (fun j => w.getLsbD (8 * (7 - i) + j)) 8 := by
      simp only [cnt]
      rw [show 63 - (8 * i + 0) = 8 * (7 - i) + 7 by omega, show 63 - (8 * i + 1) = 8 * (7 - i) + 6 by omega,
        show 63 - (8 * i + 2) = 8 * (7 - i) + 5 by omega, show 63 - (8 * i + 3) = 8 * (7 - i) + 4 by omega,
        show 63 - (8 * i + 4) = 8 * (7 - i) + 3 by omega, show 63 - (8 * i + 5) = 8 * (7 - i) + 2 by omega,
        show 63 - (8 * i + 6) = 8 * (7 - i) + 1 by omega, show 63 - (8 * i + 7) = 8 * (7 - i) + 0 by omega]
      omega
    rw [← h3]
    simp only [Bool.false_eq_true, if_false]
    omega
  · unfold sumsDown
    rw [cum_eq']
    simp only [Bool.false_eq_true, if_false]
    congr 2; omega

/-- `find_close_in_word` -/
theorem closeInWord_spec (w : W) {e : Int} (h1 : 1 ≤ e) (h2 : e ≤ 64) :
    (∃ n, First w.getLsbD e 64 n ∧ closeInWord w (byteCounts w) e = .ok (some (n - 1))) ∨
    ((∀ k, k ≤ 64 → 0 < e + exc w.getLsbD k) ∧ closeInWord w (byteCounts w) e = .ok none) := by
  have hT : ∀ i n, n ≤ 8 → exc (byteOf w i).testBit n = exc (fun j => w.getLsbD (8 * i + j)) n := fun i n hn =>
    exc_congr (fun j hj => Exc.byte_testBit w i j (by omega))
  have hmin : ∀ i, (ExcessTables.fwd (byteOf w i)).min ≤ 8 := by
    intro i
    have h := (ExcessTables.fwd_spec (byteOf w i)).2
    have := h.val
    have := h.le_hi
    have := neg_le_exc (byteOf w i).testBit (ExcessTables.fwd (byteOf w i)).idx
    omega
  have hcum := closeCum w e
  have hg := fun i hi => gather_byte (fun i => (ExcessTables.fwd (byteOf w i)).min) (fun i => by have := hmin i; omega) i hi
  unfold closeInWord
  generalize sumsUp (byteCounts w) e = cum at hcum
  generalize gather (fun i => (ExcessTables.fwd (byteOf w i)).min) = mins at hg
  rcases scan h1 h2 hcum hg (fun i _ => hmin i) (fun i _ n hn => by
    rw [← hT i n hn]; exact (ExcessTables.fwd_spec (byteOf w i)).2.le n (by omega) hn) with ⟨i, hi, hl, a1, a2, a3, a4⟩ | ⟨hl, a1⟩
  · left
    rw [hl]
    simp only [pickClose]
    have hb : ((w >>> (8 * i)) &&& 0xFF).toNat = byteOf w i := by unfold byteOf; rw [Nat.mul_comm]
    rw [hb, and_byte_eq]
    obtain ⟨c, hc⟩ : ∃ c : Fin 256, c.val = byteOf w i := ⟨⟨byteOf w i, and_byte _ _⟩, rfl⟩
    obtain ⟨x, hx⟩ : ∃ x : Fin 9, x.val = cum.toNat / 256 ^ i % 256 := ⟨⟨cum.toNat / 256 ^ i % 256, by have := hmin i; omega⟩, rfl⟩
    obtain ⟨t1, t2, t3, t4, t5⟩ := fwdPos_all c x (by omega) (by rw [hc]; omega)
    rw [hc] at t1 t2 t3 t4 t5
    rw [hx] at t1 t2 t3 t4 t5
    generalize (ExcessTables.fwdPos (byteOf w i)).getD (cum.toNat / 256 ^ i % 256) 0 = p at t1 t2 t3 t4 t5
    rw [rd_of_getElem? t1, M.ok_bind]
    refine ⟨8 * i + p, ?_, rfl⟩
    apply scan_first hi a4 t3
    · rw [← hT i p t3, t4, a3]
    · intro k hk
      rw [← hT i k (by omega), ← a3]
      exact t5 ⟨k, by omega⟩ hk
  · right
    rw [hl]
    exact ⟨a1, rfl⟩

/-- `find_open_in_word`: the bits from the last to the first, complemented -/
theorem openInWord_spec (w : W) {e : Int} (h1 : 1 ≤ e) (h2 : e ≤ 64) :
    (∃ n, First (fun j => !w.getLsbD (63 - j)) e 64 n ∧ openInWord w (byteCounts w) e = .ok (some (64 - n))) ∨
    ((∀ k, k ≤ 64 → 0 < e + exc (fun j => !w.getLsbD (63 - j)) k) ∧ openInWord w (byteCounts w) e = .ok none) := by
  have hT : ∀ i n, i < 8 → n ≤ 8 → exc (fun j => !(((w >>> (64 - i * 8 - 8)) &&& 0xFF).toNat).testBit (7 - j)) n =
      exc (fun j => !w.getLsbD (63 - (8 * i + j))) n := fun i n hi hn =>
    exc_congr (fun j hj => by
      rw [show 64 - i * 8 - 8 = (7 - i) * 8 by omega, Exc.byte_testBit w (7 - i) (7 - j) (by omega)]
      congr 2; omega)
  have hall : ∀ i, let c := ((w >>> (64 - i * 8 - 8)) &&& 0xFF).toNat; ExcessTables.bwdMin c ≤ 8 ∧
      (∀ n : Fin 9, -(ExcessTables.bwdMin c : Int) ≤ exc (fun j => !c.testBit (7 - j)) n) ∧ ∀ e : Fin 9, 1 ≤ e.val → e.val ≤ ExcessTables.bwdMin c →
      (ExcessTables.bwdPos c)[e.val]? = some ((ExcessTables.bwdPos c).getD e 0) ∧
      1 ≤ (ExcessTables.bwdPos c).getD e 0 ∧ (ExcessTables.bwdPos c).getD e 0 ≤ 8 ∧
      exc (fun j => !c.testBit (7 - j)) ((ExcessTables.bwdPos c).getD e 0) = -(e.val : Int) ∧
      ∀ k : Fin 8, k.val < (ExcessTables.bwdPos c).getD e 0 → -(e.val : Int) < exc (fun j => !c.testBit (7 - j)) k :=
    fun i => bwd_all ⟨((w >>> (64 - i * 8 - 8)) &&& 0xFF).toNat, and_byte _ _⟩
  dsimp only at hall
  have hcum := openCum w e
  have hg := fun i hi => gather_byte (fun i => ExcessTables.bwdMin ((w >>> (64 - i * 8 - 8)) &&& 0xFF).toNat)
    (fun i => by have := (hall i).1; omega) i hi
  unfold openInWord
  generalize sumsDown (byteCounts w) e = cum at hcum
  generalize gather (fun i => ExcessTables.bwdMin ((w >>> (64 - i * 8 - 8)) &&& 0xFF).toNat) = maxs at hg
  rcases scan h1 h2 hcum hg (fun i _ => (hall i).1) (fun i hi n hn => by
    rw [← hT i n hi hn]; exact (hall i).2.1 ⟨n, by omega⟩) with ⟨i, hi, hl, a1, a2, a3, a4⟩ | ⟨hl, a1⟩
  · left
    rw [hl]
    simp only [pickOpen]
    have hall2 := hall i
    rw [show i * 8 = 8 * i by omega] at hall2 a2
    have hT2 := hT i
    rw [show i * 8 = 8 * i by omega] at hT2
    rw [and_byte_eq cum]
    obtain ⟨x, hx⟩ : ∃ x : Fin 9, x.val = cum.toNat / 256 ^ i % 256 := ⟨⟨cum.toNat / 256 ^ i % 256, by have := hall2.1; omega⟩, rfl⟩
    obtain ⟨t1, t2, t3, t4, t5⟩ := hall2.2.2 x (by omega) (by omega)
    rw [hx] at t1 t2 t3 t4 t5
    generalize (ExcessTables.bwdPos ((w >>> (64 - 8 * i - 8)) &&& 0xFF).toNat).getD (cum.toNat / 256 ^ i % 256) 0 = p at t1 t2 t3 t4 t5
    rw [rd_of_getElem? t1, M.ok_bind]
    refine ⟨8 * i + p, ?_, rfl⟩
    apply scan_first hi a4 t3
    · rw [← hT2 p hi t3, t4, a3]
    · intro k hk
      rw [← hT2 k hi (by omega), ← a3]
      exact t5 ⟨k, by omega⟩ hk
  · right
    rw [hl]
    exact ⟨a1, rfl⟩

end BP
end AC
