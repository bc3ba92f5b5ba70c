import Verif.Model.RsBitVector
/-!
# Seven fields of nine bits in a word
-/
namespace AC

/-- `a` followed by the fields `d 1`, …, `d r` of nine bits, the last being the least significant -/
def pk (a : Nat) (d : Nat → Nat) : Nat → Nat
  | 0 => a
  | r + 1 => pk a d r * 512 + d (r + 1)

theorem pk_succ (a : Nat) (d : Nat → Nat) (r : Nat) : pk a d (r + 1) = pk a d r * 512 + d (r + 1) := rfl

theorem pk_congr {a : Nat} {d e : Nat → Nat} {r : Nat} (h : ∀ j, 1 ≤ j → j ≤ r → d j = e j) : pk a d r = pk a e r := by
  induction r with
  | zero => rfl
  | succ r ih => unfold pk; rw [ih (fun j h1 h2 => h j h1 (by omega)), h (r + 1) (by omega) (by omega)]

theorem pk_lt {d : Nat → Nat} {r : Nat} (h : ∀ j, 1 ≤ j → j ≤ r → d j < 512) : pk 0 d r < 512 ^ r := by
  induction r with
  | zero => simp [pk]
  | succ r ih =>
      unfold pk
      have h1 := ih (fun j a b => h j a (by omega))
      have h2 := h (r + 1) (by omega) (by omega)
      rw [Nat.pow_succ]
      omega

theorem field_or (a b x y : Nat) (hx : x < 512) (hy : y < 512) : (a * 512 + x) ||| (b * 512 + y) = (a ||| b) * 512 + (x ||| y) := by
  have e : (512 : Nat) = 2 ^ 9 := rfl
  have hor : x ||| y < 2 ^ 9 := Nat.or_lt_two_pow hx hy
  apply Nat.eq_of_testBit_eq
  intro j
  rw [Nat.testBit_or, Nat.mul_comm a, Nat.mul_comm b, Nat.mul_comm (a ||| b), e, Nat.testBit_two_pow_mul_add _ hx,
    Nat.testBit_two_pow_mul_add _ hy, Nat.testBit_two_pow_mul_add _ hor]
  split <;> simp

theorem field_and (a b x y : Nat) (hx : x < 512) (hy : y < 512) : (a * 512 + x) &&& (b * 512 + y) = (a &&& b) * 512 + (x &&& y) := by
  have e : (512 : Nat) = 2 ^ 9 := rfl
  have hor : x &&& y < 2 ^ 9 := Nat.and_lt_two_pow _ hy
  apply Nat.eq_of_testBit_eq
  intro j
  rw [Nat.testBit_and, Nat.mul_comm a, Nat.mul_comm b, Nat.mul_comm (a &&& b), e, Nat.testBit_two_pow_mul_add _ hx,
    Nat.testBit_two_pow_mul_add _ hy, Nat.testBit_two_pow_mul_add _ hor]
  split <;> simp

theorem field_xor (a b x y : Nat) (hx : x < 512) (hy : y < 512) : (a * 512 + x) ^^^ (b * 512 + y) = (a ^^^ b) * 512 + (x ^^^ y) := by
  have e : (512 : Nat) = 2 ^ 9 := rfl
  have hor : x ^^^ y < 2 ^ 9 := Nat.xor_lt_two_pow hx hy
  apply Nat.eq_of_testBit_eq
  intro j
  rw [Nat.testBit_xor, Nat.mul_comm a, Nat.mul_comm b, Nat.mul_comm (a ^^^ b), e, Nat.testBit_two_pow_mul_add _ hx,
    Nat.testBit_two_pow_mul_add _ hy, Nat.testBit_two_pow_mul_add _ hor]
  split <;> simp

variable {a b : Nat} {d e : Nat → Nat} {r : Nat}

theorem pk_or (hd : ∀ j, 1 ≤ j → j ≤ r → d j < 512) (he : ∀ j, 1 ≤ j → j ≤ r → e j < 512) :
    pk a d r ||| pk b e r = pk (a ||| b) (fun j => d j ||| e j) r := by
  induction r with
  | zero => rfl
  | succ r ih =>
      unfold pk
      rw [field_or _ _ _ _ (hd _ (by omega) (by omega)) (he _ (by omega) (by omega)),
        ih (fun j h1 h2 => hd j h1 (by omega)) (fun j h1 h2 => he j h1 (by omega))]

theorem pk_and (hd : ∀ j, 1 ≤ j → j ≤ r → d j < 512) (he : ∀ j, 1 ≤ j → j ≤ r → e j < 512) :
    pk a d r &&& pk b e r = pk (a &&& b) (fun j => d j &&& e j) r := by
  induction r with
  | zero => rfl
  | succ r ih =>
      unfold pk
      rw [field_and _ _ _ _ (hd _ (by omega) (by omega)) (he _ (by omega) (by omega)),
        ih (fun j h1 h2 => hd j h1 (by omega)) (fun j h1 h2 => he j h1 (by omega))]

theorem pk_xor (hd : ∀ j, 1 ≤ j → j ≤ r → d j < 512) (he : ∀ j, 1 ≤ j → j ≤ r → e j < 512) :
    pk a d r ^^^ pk b e r = pk (a ^^^ b) (fun j => d j ^^^ e j) r := by
  induction r with
  | zero => rfl
  | succ r ih =>
      unfold pk
      rw [field_xor _ _ _ _ (hd _ (by omega) (by omega)) (he _ (by omega) (by omega)),
        ih (fun j h1 h2 => hd j h1 (by omega)) (fun j h1 h2 => he j h1 (by omega))]

theorem pk_le (hab : b ≤ a) (h : ∀ j, 1 ≤ j → j ≤ r → e j ≤ d j) : pk b e r ≤ pk a d r := by
  induction r with
  | zero => exact hab
  | succ r ih =>
      unfold pk
      have := ih (fun j h1 h2 => h j h1 (by omega))
      have := h (r + 1) (by omega) (by omega)
      omega

theorem pk_sub (hab : b ≤ a) (h : ∀ j, 1 ≤ j → j ≤ r → e j ≤ d j) :
    pk a d r - pk b e r = pk (a - b) (fun j => d j - e j) r := by
  induction r with
  | zero => rfl
  | succ r ih =>
      unfold pk
      have h1 := ih (fun j h1 h2 => h j h1 (by omega))
      have h2 := h (r + 1) (by omega) (by omega)
      have h3 := pk_le (r := r) hab (fun j h1 h2 => h j h1 (by omega))
      omega

theorem pk_mul (c : Nat) : c * pk a d r = pk (c * a) (fun j => c * d j) r := by
  induction r with
  | zero => rfl
  | succ r ih =>
      unfold pk
      rw [← ih, Nat.mul_add, Nat.mul_assoc]

theorem pk_one (k : Nat) : pk 0 (fun _ => k) r = k * pk 0 (fun _ => 1) r := by
  rw [pk_mul]; simp

theorem pk_div (hd : ∀ j, 1 ≤ j → j ≤ r → d j < 512) (j : Nat) (hj : j ≤ r) : pk a d r / 512 ^ (r - j) = pk a d j := by
  induction r with
  | zero => have : j = 0 := by omega
            subst this; simp [pk]
  | succ r ih =>
      by_cases h : j = r + 1
      · subst h; simp
      · have h1 := hd (r + 1) (by omega) (by omega)
        have : r + 1 - j = 1 + (r - j) := by omega
        rw [this, Nat.pow_add, ← Nat.div_div_eq_div_mul]
        have h2 : pk a d (r + 1) / 512 ^ 1 = pk a d r := by rw [pk_succ]; omega
        rw [h2, ih (fun j h1 h2 => hd j h1 (by omega)) (by omega)]

theorem pk_field (hd : ∀ j, 1 ≤ j → j ≤ r → d j < 512) (j : Nat) (h1 : 1 ≤ j) (hj : j ≤ r) :
    pk a d r / 512 ^ (r - j) % 512 = d j := by
  rw [pk_div hd j hj]
  obtain ⟨i, rfl⟩ : ∃ i, j = i + 1 := ⟨j - 1, by omega⟩
  have := hd (i + 1) (by omega) hj
  unfold pk; omega

/-- one field of `uleq_step_9` -/
theorem uleq_field (x y : Nat) (hx : x < 512) (hy : y < 512) :
    ((((y ||| 256) - (x &&& 255)) ||| (x ^^^ y)) ^^^ (x &&& (511 - y))) &&& 256 = if x ≤ y then 256 else 0 := by
  have hb : ∀ z : Nat, z.testBit 8 = decide (z / 256 % 2 = 1) := by
    intro z; rw [Nat.testBit_eq_decide_div_mod_eq]
  have hand : ∀ z : Nat, z &&& 256 = if z.testBit 8 then 256 else 0 := by
    intro z
    apply Nat.eq_of_testBit_eq
    intro j
    rw [Nat.testBit_and]
    have e : (256 : Nat) = 2 ^ 8 := rfl
    rw [show (256 : Nat).testBit j = decide (8 = j) from by rw [e, Nat.testBit_two_pow]]
    by_cases hj : j = 8
    · subst hj
      cases hz : z.testBit 8 <;> simp
      rw [e, Nat.testBit_two_pow]; simp
    · cases hz : z.testBit 8 <;> simp
      · omega
      · rw [show (256 : Nat) = 2 ^ 8 from rfl, Nat.testBit_two_pow]
        have : ¬ (8 = j) := by omega
        simp [this]
  have hlow : x &&& 255 = x % 256 := by
    have := Nat.and_two_pow_sub_one_eq_mod x 8; exact this
  have hor : y ||| 256 = y % 256 + 256 := by
    apply Nat.eq_of_testBit_eq
    intro j
    have e : y % 256 + 256 = 2 ^ 8 * 1 + y % 256 := by omega
    rw [e, Nat.testBit_two_pow_mul_add _ (by omega : y % 256 < 2 ^ 8), Nat.testBit_or]
    rw [show (256 : Nat).testBit j = decide (8 = j) from by rw [show (256 : Nat) = 2 ^ 8 from rfl, Nat.testBit_two_pow]]
    split
    · rename_i h
      rw [show (256 : Nat) = 2 ^ 8 from rfl, Nat.testBit_mod_two_pow]
      have : ¬ (8 = j) := by omega
      simp [h, this]
    · rename_i h
      by_cases h8 : j = 8
      · subst h8; simp
      · have h9 : 9 ≤ j := by omega
        have : y.testBit j = false := Nat.testBit_lt_two_pow (Nat.lt_of_lt_of_le hy (by
          have := Nat.pow_le_pow_right (n := 2) (by omega) h9; exact this))
        rw [this]
        have h10 : ¬ (8 = j) := by omega
        have h11 : j - 8 ≠ 0 := by omega
        simp only [h10, decide_false, Bool.or_false]
        symm
        rw [Bool.eq_false_iff]
        intro hc
        exact h11 (Nat.testBit_one_eq_true_iff_self_eq_zero.mp hc)
  rw [hand, Nat.testBit_xor, Nat.testBit_or, Nat.testBit_xor, Nat.testBit_and, hlow, hor, hb, hb, hb, hb]
  by_cases hxm : x / 256 % 2 = 1 <;> by_cases hym : y / 256 % 2 = 1
  · have h1 : ¬ ((511 - y) / 256 % 2 = 1) := by omega
    by_cases hz : (y % 256 + 256 - x % 256) / 256 % 2 = 1 <;> simp [hxm, hym, h1, hz] <;> omega
  · have h1 : ((511 - y) / 256 % 2 = 1) := by omega
    simp [hxm, hym, h1]; omega
  · simp [hxm, hym]; omega
  · by_cases hz : (y % 256 + 256 - x % 256) / 256 % 2 = 1 <;> simp [hxm, hym, hz] <;> omega


theorem ones9_toNat : W.ones9.toNat = pk 0 (fun _ => 1) 7 := by decide +kernel

theorem msbs9_toNat : W.msbs9.toNat = pk 0 (fun _ => 256) 7 := by decide +kernel

theorem not_msbs9_toNat : (~~~W.msbs9).toNat = pk 1 (fun _ => 255) 7 := by decide +kernel

theorem invCount9_toNat : (64 * W.invCount9).toNat = pk 0 (fun j => 64 * j) 7 := by decide +kernel

theorem pk7_lt (hd : ∀ j, 1 ≤ j → j ≤ 7 → d j < 512) : pk 0 d 7 < 2 ^ 63 := pk_lt hd

theorem repeat9_toNat (k : Nat) (hk : k < 512) : (BitVec.ofNat 64 k * W.ones9).toNat = pk 0 (fun _ => k) 7 := by
  rw [BitVec.toNat_mul, ones9_toNat, BitVec.toNat_ofNat, Nat.mod_eq_of_lt (by omega : k < 2 ^ 64), ← pk_one]
  have := pk7_lt (d := fun _ => k) (fun _ _ _ => hk)
  exact Nat.mod_eq_of_lt (by omega)

theorem pk_complement (hd : ∀ j, 1 ≤ j → j ≤ 7 → d j < 512) : 2 ^ 64 - 1 - pk 0 d 7 = pk 1 (fun j => 511 - d j) 7 := by
  have e : 2 ^ 64 - 1 = pk 1 (fun _ => 511) 7 := by decide +kernel
  rw [e, pk_sub (by omega) (fun j h1 h2 => by have := hd j h1 h2; omega)]

theorem uleq9_toNat {x : W} {k : Nat} (hx : x.toNat = pk 0 d 7) (hd : ∀ j, 1 ≤ j → j ≤ 7 → d j < 512) (hk : k < 512) :
    (W.uleq9 x (BitVec.ofNat 64 k * W.ones9)).toNat = pk 0 (fun j => if d j ≤ k then 1 else 0) 7 := by
  have hy := repeat9_toNat k hk
  generalize BitVec.ofNat 64 k * W.ones9 = y at hy
  have hyc : (~~~y).toNat = pk 1 (fun _ => 511 - k) 7 := by
    rw [BitVec.toNat_not, hy, pk_complement (fun _ _ _ => hk)]
  have h1 : (y ||| W.msbs9).toNat = pk 0 (fun _ => k ||| 256) 7 := by
    rw [BitVec.toNat_or, hy, msbs9_toNat, pk_or (fun _ _ _ => hk) (fun _ _ _ => by omega)]
    rfl
  have h2 : (x &&& ~~~W.msbs9).toNat = pk 0 (fun j => d j &&& 255) 7 := by
    rw [BitVec.toNat_and, hx, not_msbs9_toNat, pk_and hd (fun _ _ _ => by omega)]
    rfl
  have hk256 : k ||| 256 < 512 := Nat.or_lt_two_pow (n := 9) hk (by omega)
  have h256 : ∀ z : Nat, z &&& 255 ≤ k ||| 256 := by
    intro z
    have h3 : z &&& 255 ≤ 255 := Nat.and_le_right
    have h4 : 256 ≤ k ||| 256 := Nat.right_le_or
    omega
  have h3 : ((y ||| W.msbs9) - (x &&& ~~~W.msbs9)).toNat = pk 0 (fun j => (k ||| 256) - (d j &&& 255)) 7 := by
    rw [BitVec.toNat_sub_of_le]
    · rw [h1, h2, pk_sub (Nat.le_refl _) (fun j _ _ => h256 _)]
    · rw [BitVec.le_def, h1, h2]
      exact pk_le (Nat.le_refl _) (fun j _ _ => h256 _)
  have b3 : ∀ j, (k ||| 256) - (d j &&& 255) < 512 := fun j => by omega
  have h4 : (x ^^^ y).toNat = pk 0 (fun j => d j ^^^ k) 7 := by
    rw [BitVec.toNat_xor, hx, hy, pk_xor hd (fun _ _ _ => hk)]
    rfl
  have b4 : ∀ j, 1 ≤ j → j ≤ 7 → d j ^^^ k < 512 := fun j h1 h2 => Nat.xor_lt_two_pow (n := 9) (hd j h1 h2) hk
  have h5 : (x &&& ~~~y).toNat = pk 0 (fun j => d j &&& (511 - k)) 7 := by
    rw [BitVec.toNat_and, hx, hyc, pk_and hd (fun _ _ _ => by omega)]
    rfl
  have b5 : ∀ j, d j &&& (511 - k) < 512 := fun j => by have : d j &&& (511 - k) ≤ 511 - k := Nat.and_le_right
                                                        omega
  unfold W.uleq9
  rw [BitVec.toNat_ushiftRight, BitVec.toNat_and, BitVec.toNat_xor, BitVec.toNat_or, h3, h4, h5, msbs9_toNat,
    pk_or (fun j _ _ => b3 j) b4, pk_xor (fun j h1 h2 => Nat.or_lt_two_pow (n := 9) (b3 j) (b4 j h1 h2)) (fun j _ _ => b5 j),
    pk_and (fun j h1 h2 => Nat.xor_lt_two_pow (n := 9) (Nat.or_lt_two_pow (n := 9) (b3 j) (b4 j h1 h2)) (b5 j)) (fun _ _ _ => by omega)]
  have e : pk (((0 ||| 0) ^^^ 0) &&& 0) (fun j => (((k ||| 256) - (d j &&& 255) ||| (d j ^^^ k)) ^^^ (d j &&& (511 - k))) &&& 256) 7 =
      256 * pk 0 (fun j => if d j ≤ k then 1 else 0) 7 := by
    rw [pk_mul]
    apply pk_congr
    intro j h1 h2
    rw [uleq_field _ _ (hd j h1 h2) hk]
    split <;> rfl
  rw [e, Nat.shiftRight_eq_div_pow]
  exact Nat.mul_div_cancel_left _ (by omega)

theorem mul9_sum (b1 b2 b3 b4 b5 b6 b7 : Nat) (h1 : b1 ≤ 1) (h2 : b2 ≤ 1) (h3 : b3 ≤ 1) (h4 : b4 ≤ 1) (h5 : b5 ≤ 1)
    (h6 : b6 ≤ 1) (h7 : b7 ≤ 1) :
    ((((((b1 * 512 + b2) * 512 + b3) * 512 + b4) * 512 + b5) * 512 + b6) * 512 + b7) * 18049651735527937 % 2 ^ 64 / 2 ^ 54 % 8 =
      b1 + b2 + b3 + b4 + b5 + b6 + b7 := by
  have key : ∀ b1 b2 b3 b4 b5 b6 b7 : Fin 2,
      ((((((b1.val * 512 + b2.val) * 512 + b3.val) * 512 + b4.val) * 512 + b5.val) * 512 + b6.val) * 512 + b7.val) *
        18049651735527937 % 2 ^ 64 / 2 ^ 54 % 8 = b1.val + b2.val + b3.val + b4.val + b5.val + b6.val + b7.val := by
    decide +kernel
  exact key ⟨b1, by omega⟩ ⟨b2, by omega⟩ ⟨b3, by omega⟩ ⟨b4, by omega⟩ ⟨b5, by omega⟩ ⟨b6, by omega⟩ ⟨b7, by omega⟩

/-- the number of fields at most `k`, for fields in increasing order -/
theorem subOffset_spec {x : W} {k : Nat} (hx : x.toNat = pk 0 d 7) (hd : ∀ j, 1 ≤ j → j ≤ 7 → d j < 512) (hk : k < 512)
    (hm : ∀ j, 1 ≤ j → j < 7 → d j ≤ d (j + 1)) :
    RS.subOffset x k ≤ 7 ∧ ∀ j, 1 ≤ j → j ≤ 7 → (j ≤ RS.subOffset x k ↔ d j ≤ k) := by
  have hU := uleq9_toNat hx hd hk
  have hO : RS.subOffset x k = (fun j => if d j ≤ k then 1 else 0) 1 + (fun j => if d j ≤ k then 1 else 0) 2 +
      (fun j => if d j ≤ k then 1 else 0) 3 + (fun j => if d j ≤ k then 1 else 0) 4 + (fun j => if d j ≤ k then 1 else 0) 5 +
      (fun j => if d j ≤ k then 1 else 0) 6 + (fun j => if d j ≤ k then 1 else 0) 7 := by
    unfold RS.subOffset
    rw [BitVec.toNat_and, BitVec.toNat_ushiftRight, BitVec.toNat_mul, hU, show W.ones9.toNat = 18049651735527937 from by decide +kernel,
      show (7 : W).toNat = 2 ^ 3 - 1 from by decide, Nat.and_two_pow_sub_one_eq_mod, Nat.shiftRight_eq_div_pow]
    have := mul9_sum ((fun j => if d j ≤ k then 1 else 0) 1) ((fun j => if d j ≤ k then 1 else 0) 2)
      ((fun j => if d j ≤ k then 1 else 0) 3) ((fun j => if d j ≤ k then 1 else 0) 4) ((fun j => if d j ≤ k then 1 else 0) 5)
      ((fun j => if d j ≤ k then 1 else 0) 6) ((fun j => if d j ≤ k then 1 else 0) 7) (by simp only; split <;> omega)
      (by simp only; split <;> omega) (by simp only; split <;> omega) (by simp only; split <;> omega)
      (by simp only; split <;> omega) (by simp only; split <;> omega) (by simp only; split <;> omega)
    rw [← this]
    simp only [pk, Nat.zero_mul, Nat.zero_add]
  simp only at hO
  have m1 := hm 1 (by omega) (by omega)
  have m2 := hm 2 (by omega) (by omega)
  have m3 := hm 3 (by omega) (by omega)
  have m4 := hm 4 (by omega) (by omega)
  have m5 := hm 5 (by omega) (by omega)
  have m6 := hm 6 (by omega) (by omega)
  have key : ∀ j, (if d j ≤ k then 1 else 0) = 1 ∧ d j ≤ k ∨ (if d j ≤ k then 1 else 0) = 0 ∧ k < d j := by
    intro j; split <;> simp <;> omega
  simp only [Nat.reduceAdd] at m1 m2 m3 m4 m5 m6
  have k1 := key 1
  have k2 := key 2
  have k3 := key 3
  have k4 := key 4
  have k5 := key 5
  have k6 := key 6
  have k7 := key 7
  generalize RS.subOffset x k = o at hO
  generalize (if d 1 ≤ k then 1 else 0) = b1 at hO k1
  generalize (if d 2 ≤ k then 1 else 0) = b2 at hO k2
  generalize (if d 3 ≤ k then 1 else 0) = b3 at hO k3
  generalize (if d 4 ≤ k then 1 else 0) = b4 at hO k4
  generalize (if d 5 ≤ k then 1 else 0) = b5 at hO k5
  generalize (if d 6 ≤ k then 1 else 0) = b6 at hO k6
  generalize (if d 7 ≤ k then 1 else 0) = b7 at hO k7
  refine ⟨by omega, ?_⟩
  intro j h1 h7
  have : j = 1 ∨ j = 2 ∨ j = 3 ∨ j = 4 ∨ j = 5 ∨ j = 6 ∨ j = 7 := by omega
  rcases this with rfl | rfl | rfl | rfl | rfl | rfl | rfl <;> omega

/-- reading a field -/
theorem field_spec {x : W} (hx : x.toNat = pk 0 d 7) (hd : ∀ j, 1 ≤ j → j ≤ 7 → d j < 512) (h0 : d 0 = 0) (i : Nat) (hi : i ≤ 7) :
    RS.field x i = d i := by
  unfold RS.field
  rw [BitVec.toNat_and, BitVec.toNat_ushiftRight, hx, show (0x1FF : W).toNat = 2 ^ 9 - 1 from by decide,
    Nat.and_two_pow_sub_one_eq_mod, Nat.shiftRight_eq_div_pow, Nat.mul_comm, Nat.pow_mul]
  by_cases h : i = 0
  · subst h
    rw [h0, Nat.div_eq_of_lt]
    exact pk_lt hd
  · exact pk_field hd i (by omega) hi

/-- `subranks <<= 9; subranks |= cur` -/
theorem shiftIn_toNat {x : W} {r : Nat} (hx : x.toNat = pk 0 d r) (hr : r < 7) (hd : ∀ j, 1 ≤ j → j ≤ r + 1 → d j < 512) :
    (RS.shiftIn x (d (r + 1))).toNat = pk 0 d (r + 1) := by
  have h1 := pk_lt (d := d) (r := r + 1) hd
  have h2 : (512 : Nat) ^ (r + 1) ≤ 512 ^ 7 := Nat.pow_le_pow_right (by omega) (by omega)
  have h3 := hd (r + 1) (by omega) (by omega)
  have h4 : (512 : Nat) ^ 7 = 2 ^ 63 := by decide
  have h5 : pk 0 d (r + 1) = pk 0 d r * 512 + d (r + 1) := rfl
  unfold RS.shiftIn
  rw [BitVec.toNat_or, BitVec.toNat_shiftLeft, hx, BitVec.toNat_ofNat, Nat.shiftLeft_eq, Nat.mod_eq_of_lt (by omega),
    Nat.mod_eq_of_lt (by omega), pk_succ]
  have h6 := field_or (pk 0 d r) 0 0 (d (r + 1)) (by omega) h3
  simpa using h6

end AC
