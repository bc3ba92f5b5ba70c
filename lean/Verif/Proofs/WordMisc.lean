import Verif.Proofs.WordSelect
/-!
# Reversal, comparison of fields, logarithms
-/
namespace AC
namespace Util

/-! ## Reversal -/

/-- exchanging groups of `s` bits -/
theorem swap_bit {x m : W} {s : Nat} (hs : 0 < s) (hm : ∀ i : Fin 64, m.getLsbD i.val = decide (i.val / s % 2 = 0)) (hsw : ∀ i : Fin 64, i.val / s % 2 = 0 → i.val + s < 64)
    {i : Nat} (hi : i < 64) :
    (((x >>> s) &&& m) ||| ((x &&& m) <<< s)).getLsbD i = x.getLsbD (if i / s % 2 = 0 then i + s else i - s) := by
  rw [BitVec.getLsbD_or, BitVec.getLsbD_and, BitVec.getLsbD_ushiftRight, BitVec.getLsbD_shiftLeft, BitVec.getLsbD_and, hm ⟨i, hi⟩]
  by_cases h : i / s % 2 = 0
  · rw [if_pos h]
    have hlow : decide (i < s) || !m.getLsbD (i - s) := by
      by_cases his : i < s
      · simp [his]
      · have e : i / s = (i - s) / s + 1 := by
          have := Nat.div_eq_sub_div hs (by omega : s ≤ i)
          exact this
        rw [hm ⟨i - s, by omega⟩]
        simp only [Bool.or_eq_true, Bool.not_eq_true', decide_eq_false_iff_not]
        right
        intro h2
        omega
    rcases Bool.or_eq_true _ _ ▸ hlow with h1 | h1
    · simp only [decide_eq_true_eq] at h1
      simp [h, h1, Nat.add_comm]
    · simp only [Bool.not_eq_true'] at h1
      simp [h, h1, Nat.add_comm]
  · rw [if_neg h]
    have his : ¬ i < s := by
      intro h2
      rw [Nat.div_eq_of_lt h2] at h
      exact h rfl
    have e : i / s = (i - s) / s + 1 := Nat.div_eq_sub_div hs (by omega : s ≤ i)
    have : m.getLsbD (i - s) = true := by
      rw [hm ⟨i - s, by omega⟩]
      simp only [decide_eq_true_eq]
      omega
    simp [h, his, this, hi]

theorem halves_bit (x : W) {i : Nat} (hi : i < 64) : ((x >>> 32) ||| (x <<< 32)).getLsbD i = x.getLsbD (if i < 32 then i + 32 else i - 32) := by
  rw [BitVec.getLsbD_or, BitVec.getLsbD_ushiftRight, BitVec.getLsbD_shiftLeft]
  by_cases h : i < 32
  · simp [h, Nat.add_comm]
  · have : x.getLsbD (32 + i) = false := BitVec.getLsbD_of_ge _ _ (by omega)
    simp [h, hi, this]

theorem reverseBytes_bit (x : W) {i : Nat} (hi : i < 64) : (reverseBytes x).getLsbD i = x.getLsbD (56 - 8 * (i / 8) + i % 8) := by
  unfold reverseBytes
  simp only
  have e : (if i < 32 then i + 32 else i - 32) < 64 := by split <;> omega
  rw [halves_bit _ hi, swap_bit (by omega) (by decide +kernel) (by decide +kernel) e, swap_bit (by omega) (by decide +kernel) (by decide +kernel)]
  · congr 1
    revert i
    intro i hi _
    have : ∀ i : Fin 64, (if (if (if i.val < 32 then i.val + 32 else i.val - 32) / 16 % 2 = 0 then (if i.val < 32 then i.val + 32 else i.val - 32) + 16 else (if i.val < 32 then i.val + 32 else i.val - 32) - 16) / 8 % 2 = 0 then (if (if i.val < 32 then i.val + 32 else i.val - 32) / 16 % 2 = 0 then (if i.val < 32 then i.val + 32 else i.val - 32) + 16 else (if i.val < 32 then i.val + 32 else i.val - 32) - 16) + 8 else (if (if i.val < 32 then i.val + 32 else i.val - 32) / 16 % 2 = 0 then (if i.val < 32 then i.val + 32 else i.val - 32) + 16 else (if i.val < 32 then i.val + 32 else i.val - 32) - 16) - 8) = 56 - 8 * (i.val / 8) + i.val % 8 := by
      decide +kernel
    exact this ⟨i, hi⟩
  · split <;> split <;> omega

theorem reverseBits_bit (x : W) {i : Nat} (hi : i < 64) : (reverseBits x).getLsbD i = x.getLsbD (63 - i) := by
  unfold reverseBits
  simp only
  have e0 : 56 - 8 * (i / 8) + i % 8 < 64 := by omega
  rw [reverseBytes_bit _ hi]
  generalize hj : 56 - 8 * (i / 8) + i % 8 = j at e0
  have e1 : (if j / 4 % 2 = 0 then j + 4 else j - 4) < 64 := by split <;> omega
  rw [swap_bit (by omega) (by decide +kernel) (by decide +kernel) e0]
  generalize hk : (if j / 4 % 2 = 0 then j + 4 else j - 4) = k at e1
  have e2 : (if k / 2 % 2 = 0 then k + 2 else k - 2) < 64 := by split <;> omega
  rw [swap_bit (by omega) (by decide +kernel) (by decide +kernel) e1, swap_bit (by omega) (by decide +kernel) (by decide +kernel) e2]
  congr 1
  generalize hm : (if k / 2 % 2 = 0 then k + 2 else k - 2) = m at e2
  simp only [Nat.div_one]
  split at hk <;> split at hm <;> split <;> omega

/-! ## Comparison of bytes -/

theorem leq_field : ∀ a, a < 256 → ∀ b, b < 256 → (((b ||| 128) - (a &&& 127)) ^^^ (a ^^^ b)) &&& 128 =
    if (b + 256 - a) % 256 < 128 then 128 else 0 := by
  have : ∀ a b : Fin 256, (((b.val ||| 128) - (a.val &&& 127)) ^^^ (a.val ^^^ b.val)) &&& 128 =
      if (b.val + 256 - a.val) % 256 < 128 then 128 else 0 := by
    decide +kernel
  intro a ha b hb
  exact this ⟨a, ha⟩ ⟨b, hb⟩

theorem zip_map (f g h : Nat → Nat → Nat) : ∀ (as bs : List Nat), List.zipWith h (List.zipWith f as bs) (List.zipWith g as bs) =
    List.zipWith (fun a b => h (f a b) (g a b)) as bs
  | [], _ => by simp
  | _ :: _, [] => by simp
  | a :: as, b :: bs => by simp [zip_map f g h as bs]

theorem zip_lt (f : Nat → Nat → Nat) {as bs : List Nat} (ha : ∀ a ∈ as, a < 256) (hb : ∀ b ∈ bs, b < 256)
    (h : ∀ a, a < 256 → ∀ b, b < 256 → f a b < 256) : ∀ c ∈ List.zipWith f as bs, c < 256 := by
  intro c hc
  obtain ⟨i, hi, rfl⟩ := List.getElem_of_mem hc
  rw [List.getElem_zipWith]
  exact h _ (ha _ (List.getElem_mem _)) _ (hb _ (List.getElem_mem _))

theorem zip_right (as bs : List Nat) (f : Nat → Nat) (h : as.length = bs.length) : List.zipWith (fun _ b => f b) as bs = bs.map f := by
  induction as generalizing bs with
  | nil => cases bs <;> simp at *
  | cons a as ih => cases bs with
    | nil => simp at h
    | cons b bs => simp at h ⊢; exact ih bs h

theorem zip_left (as bs : List Nat) (f : Nat → Nat) (h : as.length = bs.length) : List.zipWith (fun a _ => f a) as bs = as.map f := by
  induction as generalizing bs with
  | nil => cases bs <;> simp at *
  | cons a as ih => cases bs with
    | nil => simp at h
    | cons b bs => simp at h ⊢; exact ih bs h

theorem pack_zip_le (f g : Nat → Nat → Nat) : ∀ (as bs : List Nat), (∀ a ∈ as, ∀ b ∈ bs, g a b ≤ f a b) →
    pack (List.zipWith g as bs) ≤ pack (List.zipWith f as bs)
  | [], _, _ => by simp
  | _ :: _, [], _ => by simp
  | a :: as, b :: bs, h => by
      simp only [List.zipWith_cons_cons, pack]
      have h1 := pack_zip_le f g as bs (fun c hc d hd => h c (List.mem_cons_of_mem _ hc) d (List.mem_cons_of_mem _ hd))
      have h2 := h a (List.mem_cons_self ..) b (List.mem_cons_self ..)
      omega

theorem pack_zip_sub (f g : Nat → Nat → Nat) : ∀ (as bs : List Nat), (∀ a ∈ as, ∀ b ∈ bs, g a b ≤ f a b) →
    pack (List.zipWith f as bs) - pack (List.zipWith g as bs) = pack (List.zipWith (fun a b => f a b - g a b) as bs)
  | [], _, _ => by simp [pack]
  | _ :: _, [], _ => by simp [pack]
  | a :: as, b :: bs, h => by
      simp only [List.zipWith_cons_cons, pack]
      have h1 := pack_zip_sub f g as bs (fun c hc d hd => h c (List.mem_cons_of_mem _ hc) d (List.mem_cons_of_mem _ hd))
      have h2 := h a (List.mem_cons_self ..) b (List.mem_cons_self ..)
      have h3 := pack_zip_le f g as bs (fun c hc d hd => h c (List.mem_cons_of_mem _ hc) d (List.mem_cons_of_mem _ hd))
      omega

theorem leqStep8_toNat (x y : W) : (leqStep8 x y).toNat =
    pack (List.zipWith (fun a b => if (b + 256 - a) % 256 < 128 then 1 else 0) x.bytes y.bytes) := by
  have hxl := x.bytes_length
  have hyl := y.bytes_length
  have hxb := x.bytes_lt
  have hyb := y.bytes_lt
  have hx := x.pack_bytes.symm
  have hy := y.pack_bytes.symm
  generalize x.bytes = as at *
  generalize y.bytes = bs at *
  have hlen : as.length = bs.length := by omega
  have h1 : (y ||| msbs8).toNat = pack (List.zipWith (fun _ b => b ||| 128) as bs) := by
    rw [BitVec.toNat_or, hy, show msbs8.toNat = pack (List.replicate bs.length 128) from by rw [hyl]; decide +kernel,
      pack_or_const hyb _ (by omega), zip_right as bs _ hlen]
  have h2 : (x &&& ~~~msbs8).toNat = pack (List.zipWith (fun a _ => a &&& 127) as bs) := by
    rw [BitVec.toNat_and, hx, show (~~~msbs8).toNat = pack (List.replicate as.length 127) from by rw [hxl]; decide +kernel,
      pack_and_const hxb _ (by omega), zip_left as bs _ hlen]
  have hle : ∀ a ∈ as, ∀ b ∈ bs, a &&& 127 ≤ b ||| 128 := by
    intro a _ b _
    have h3 : a &&& 127 ≤ 127 := Nat.and_le_right
    have h4 : 128 ≤ b ||| 128 := Nat.right_le_or
    omega
  have h3 : ((y ||| msbs8) - (x &&& ~~~msbs8)).toNat = pack (List.zipWith (fun a b => (b ||| 128) - (a &&& 127)) as bs) := by
    rw [BitVec.toNat_sub_of_le]
    · rw [h1, h2, pack_zip_sub _ _ _ _ hle]
    · rw [BitVec.le_def, h1, h2]
      exact pack_zip_le _ _ _ _ hle
  have h4 : (x ^^^ y).toNat = pack (List.zipWith (fun a b => a ^^^ b) as bs) := by
    rw [BitVec.toNat_xor, hx, hy, pack_xor hxb hyb hlen]
  have b3 : ∀ a, a < 256 → ∀ b, b < 256 → (b ||| 128) - (a &&& 127) < 256 := by
    intro a _ b hb
    have : b ||| 128 < 2 ^ 8 := Nat.or_lt_two_pow hb (by omega)
    omega
  have b4 : ∀ a, a < 256 → ∀ b, b < 256 → a ^^^ b < 256 := fun a ha b hb => Nat.xor_lt_two_pow (n := 8) ha hb
  have h5 : ((((y ||| msbs8) - (x &&& ~~~msbs8)) ^^^ (x ^^^ y)) &&& msbs8).toNat =
      pack (List.zipWith (fun a b => if (b + 256 - a) % 256 < 128 then 128 else 0) as bs) := by
    rw [BitVec.toNat_and, BitVec.toNat_xor, h3, h4, pack_xor (zip_lt _ hxb hyb b3) (zip_lt _ hxb hyb b4) (by simp), zip_map,
      show msbs8.toNat = pack (List.replicate (List.zipWith (fun a b => (b ||| 128) - (a &&& 127) ^^^ (a ^^^ b)) as bs).length 128) from by
        rw [List.length_zipWith, hxl, hyl]; decide +kernel,
      pack_and_const (zip_lt _ hxb hyb (fun a ha b hb => Nat.xor_lt_two_pow (n := 8) (b3 a ha b hb) (b4 a ha b hb))) _ (by omega),
      List.map_zipWith]
    congr 1
    apply List.ext_getElem (by simp)
    intro i h1 h2
    rw [List.getElem_zipWith, List.getElem_zipWith]
    exact leq_field _ (hxb _ (List.getElem_mem _)) _ (hyb _ (List.getElem_mem _))
  unfold leqStep8
  rw [BitVec.toNat_ushiftRight, h5, Nat.shiftRight_eq_div_pow, pack_dvd _ (by omega)]
  · rw [List.map_zipWith]
    congr 1
    apply List.ext_getElem (by simp)
    intro i h1 h2
    rw [List.getElem_zipWith, List.getElem_zipWith]
    split <;> rfl
  · intro f hf
    obtain ⟨i, hi, rfl⟩ := List.getElem_of_mem hf
    rw [List.getElem_zipWith]
    split
    · exact Nat.dvd_refl 128
    · exact Nat.dvd_zero _

theorem leqStep8_byte (x y : W) {i : Nat} (hi : i < 8) : (leqStep8 x y).toNat / 256 ^ i % 256 =
    if (y.toNat / 256 ^ i % 256 + 256 - x.toNat / 256 ^ i % 256) % 256 < 128 then 1 else 0 := by
  rw [leqStep8_toNat, pack_byte (zip_lt _ x.bytes_lt y.bytes_lt (fun a _ b _ => by split <;> omega)) i (by simp [W.bytes_length, hi]),
    List.getElem_zipWith, W.bytes_getElem, W.bytes_getElem] <;> exact hi

/-! ## Fields of nine bits compared -/

/-- a word: one bit and seven fields of nine bits -/
theorem word_pk (x : W) : ∃ (a : Nat) (d : Nat → Nat), a ≤ 1 ∧ (∀ j, d j < 512) ∧ x.toNat = pk a d 7 ∧
    ∀ i, i < 7 → x.toNat / 512 ^ i % 512 = d (7 - i) := by
  have hd : ∀ j, x.toNat / 512 ^ (7 - j) % 512 < 512 := fun j => Nat.mod_lt _ (by omega)
  have hx : x.toNat = pk (x.toNat / 2 ^ 63) (fun j => x.toNat / 512 ^ (7 - j) % 512) 7 := by
    simp only [pk, Nat.zero_add, Nat.reduceAdd, Nat.reduceSub, Nat.reducePow]
    omega
  refine ⟨x.toNat / 2 ^ 63, fun j => x.toNat / 512 ^ (7 - j) % 512, ?_, hd, hx, ?_⟩
  · have := x.isLt; omega
  · intro i hi
    simp only
    rw [show 7 - (7 - i) = i from by omega]

theorem pk_head (a : Nat) (d : Nat → Nat) : pk a d 7 = a * 2 ^ 63 + pk 0 d 7 := by
  simp only [pk]; omega

theorem uleq9_fields (x y : W) {i : Nat} (hi : i < 7) : (W.uleq9 x y).toNat / 512 ^ i % 512 =
    if x.toNat / 512 ^ i % 512 ≤ y.toNat / 512 ^ i % 512 then 1 else 0 := by
  obtain ⟨a, d, ha, hd, hx, hdx⟩ := word_pk x
  obtain ⟨b, e, hb, he, hy, hey⟩ := word_pk y
  rw [hdx i hi, hey i hi]
  have hyc : (~~~y).toNat = pk (1 - b) (fun j => 511 - e j) 7 := by
    have e1 : 2 ^ 64 - 1 = pk 1 (fun _ => 511) 7 := by decide +kernel
    rw [BitVec.toNat_not, hy, e1, pk_sub hb (fun j _ _ => by have := he j; omega)]
  have h1 : (y ||| W.msbs9).toNat = pk b (fun j => e j ||| 256) 7 := by
    rw [BitVec.toNat_or, hy, msbs9_toNat, pk_or (fun j _ _ => he j) (fun _ _ _ => by omega), Nat.or_zero]
  have h2 : (x &&& ~~~W.msbs9).toNat = pk a (fun j => d j &&& 255) 7 := by
    rw [BitVec.toNat_and, hx, not_msbs9_toNat, pk_and (fun j _ _ => hd j) (fun _ _ _ => by omega)]
    rw [show a &&& 1 = a from by rw [Nat.and_one_is_mod]; omega]
  have b1 : ∀ j, e j ||| 256 < 512 := fun j => Nat.or_lt_two_pow (n := 9) (he j) (by omega)
  have h256 : ∀ j, d j &&& 255 ≤ e j ||| 256 := by
    intro j
    have h3 : d j &&& 255 ≤ 255 := Nat.and_le_right
    have h4 : 256 ≤ e j ||| 256 := Nat.right_le_or
    omega
  have b3 : ∀ j, (e j ||| 256) - (d j &&& 255) < 512 := fun j => by have := b1 j; omega
  obtain ⟨c, h3⟩ : ∃ c, ((y ||| W.msbs9) - (x &&& ~~~W.msbs9)).toNat = pk c (fun j => (e j ||| 256) - (d j &&& 255)) 7 := by
    have hs := pk_sub (a := 0) (b := 0) (r := 7) (Nat.le_refl 0) (fun j _ _ => h256 j)
    have hle := pk_le (a := 0) (b := 0) (r := 7) (Nat.le_refl 0) (fun j _ _ => h256 j)
    have hlt := pk7_lt (d := fun j => (e j ||| 256) - (d j &&& 255)) (fun j _ _ => b3 j)
    have hY := pk7_lt (d := fun j => e j ||| 256) (fun j _ _ => b1 j)
    refine ⟨(b + 2 - a) % 2, ?_⟩
    rw [BitVec.toNat_sub, h1, h2, pk_head b, pk_head a, pk_head ((b + 2 - a) % 2)]
    generalize pk 0 (fun j => e j ||| 256) 7 = Y at *
    generalize pk 0 (fun j => d j &&& 255) 7 = X at *
    rw [Nat.sub_self] at hs
    rw [← hs] at hlt ⊢
    clear hyc h1 h2 hx hy hdx hey hd he b1 b3 h256
    rcases (by omega : a = 0 ∨ a = 1) with rfl | rfl <;> rcases (by omega : b = 0 ∨ b = 1) with rfl | rfl <;> omega
  have h4 : (x ^^^ y).toNat = pk (a ^^^ b) (fun j => d j ^^^ e j) 7 := by
    rw [BitVec.toNat_xor, hx, hy, pk_xor (fun j _ _ => hd j) (fun j _ _ => he j)]
  have b4 : ∀ j, d j ^^^ e j < 512 := fun j => Nat.xor_lt_two_pow (n := 9) (hd j) (he j)
  have h5 : (x &&& ~~~y).toNat = pk (a &&& (1 - b)) (fun j => d j &&& (511 - e j)) 7 := by
    rw [BitVec.toNat_and, hx, hyc, pk_and (fun j _ _ => hd j) (fun _ _ _ => by omega)]
  have b5 : ∀ j, d j &&& (511 - e j) < 512 := fun j => by have : d j &&& (511 - e j) ≤ 511 - e j := Nat.and_le_right
                                                          omega
  have h6 : (W.uleq9 x y).toNat = pk 0 (fun j => if d j ≤ e j then 1 else 0) 7 := by
    unfold W.uleq9
    rw [BitVec.toNat_ushiftRight, BitVec.toNat_and, BitVec.toNat_xor, BitVec.toNat_or, h3, h4, h5, msbs9_toNat,
      pk_or (fun j _ _ => b3 j) (fun j _ _ => b4 j),
      pk_xor (fun j _ _ => Nat.or_lt_two_pow (n := 9) (b3 j) (b4 j)) (fun j _ _ => b5 j),
      pk_and (fun j _ _ => Nat.xor_lt_two_pow (n := 9) (Nat.or_lt_two_pow (n := 9) (b3 j) (b4 j)) (b5 j)) (fun _ _ _ => by omega), Nat.and_zero]
    have e2 : pk 0 (fun j => (((e j ||| 256) - (d j &&& 255) ||| (d j ^^^ e j)) ^^^ (d j &&& (511 - e j))) &&& 256) 7 =
        256 * pk 0 (fun j => if d j ≤ e j then 1 else 0) 7 := by
      rw [pk_mul]
      apply pk_congr
      intro j h1 h2
      rw [uleq_field _ _ (hd j) (he j)]
      split <;> rfl
    rw [e2, Nat.shiftRight_eq_div_pow]
    exact Nat.mul_div_cancel_left _ (by omega)
  have h7 := pk_field (a := 0) (d := fun j => if d j ≤ e j then 1 else 0) (r := 7) (fun j _ _ => by split <;> omega) (7 - i) (by omega) (by omega)
  rw [show 7 - (7 - i) = i from by omega] at h7
  rw [h6, h7]

/-! ## Extreme ones and logarithms -/

theorem find_range_some {n i : Nat} {p : Nat → Bool} (h : (List.range n).find? p = some i) : i < n ∧ p i = true ∧ ∀ j, j < i → p j = false := by
  have h1 := List.find?_range_eq_some.mp h
  refine ⟨List.mem_range.mp h1.2.1, h1.1, fun j hj => ?_⟩
  have := h1.2.2 j hj
  simpa using this

theorem find_range_none {n : Nat} {p : Nat → Bool} (h : (List.range n).find? p = none) : ∀ j, j < n → p j = false := by
  intro j hj
  have := List.find?_eq_none.mp h j (List.mem_range.mpr hj)
  simpa using this

theorem eq_zero_of_bits {x : W} (h : ∀ i, i < 64 → x.getLsbD i = false) : x = 0 := by
  apply BitVec.eq_of_getLsbD_eq
  intro i hi
  rw [h i hi]; simp

theorem msb_spec {x : W} (hx : x ≠ 0) : msb x < 64 ∧ x.getLsbD (msb x) = true ∧ (∀ i, msb x < i → x.getLsbD i = false) ∧
    2 ^ msb x ≤ x.toNat ∧ x.toNat < 2 ^ (msb x + 1) := by
  have key : msb x < 64 ∧ x.getLsbD (msb x) = true ∧ (∀ i, msb x < i → x.getLsbD i = false) := by
    unfold msb clz
    rw [if_pos hx]
    cases h : (List.range 64).find? (fun i => x.getLsbD (63 - i)) with
    | none =>
        exfalso
        apply hx
        apply eq_zero_of_bits
        intro i hi
        have := find_range_none h (63 - i) (by omega)
        rw [show 63 - (63 - i) = i from by omega] at this
        exact this
    | some c =>
        obtain ⟨h1, h2, h3⟩ := find_range_some h
        rw [Option.getD_some, Nat.mod_eq_of_lt (by omega)]
        refine ⟨by omega, h2, ?_⟩
        intro i hi
        by_cases h64 : i < 64
        · have := h3 (63 - i) (by omega)
          rw [show 63 - (63 - i) = i from by omega] at this
          exact this
        · exact BitVec.getLsbD_of_ge _ _ (by omega)
  refine ⟨key.1, key.2.1, key.2.2, ?_, ?_⟩
  · exact Nat.ge_two_pow_of_testBit key.2.1
  · apply Nat.lt_of_not_le
    intro h
    obtain ⟨i, h1, h2⟩ := Nat.exists_ge_and_testBit_of_ge_two_pow h
    have := key.2.2 i (by omega)
    rw [BitVec.getLsbD, h2] at this
    cases this

theorem lsb_spec {x : W} (hx : x ≠ 0) : lsb x < 64 ∧ x.getLsbD (lsb x) = true ∧ (∀ i, i < lsb x → x.getLsbD i = false) := by
  unfold lsb ctz
  rw [if_pos hx]
  cases h : (List.range 64).find? (fun i => x.getLsbD i) with
  | none =>
      exfalso
      apply hx
      exact eq_zero_of_bits (find_range_none h)
  | some c =>
      obtain ⟨h1, h2, h3⟩ := find_range_some h
      rw [Option.getD_some, Nat.mod_eq_of_lt (by omega)]
      exact ⟨h1, h2, h3⟩

end Util
end AC
