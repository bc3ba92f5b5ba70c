import Verif.Model.Util
/-!
# The eight bytes of a word
-/
namespace AC

/-- the number with these digits in base 256, the first being the least significant -/
def pack : List Nat → Nat
  | [] => 0
  | f :: fs => f + 256 * pack fs

theorem pack_lt : ∀ {fs : List Nat}, (∀ f ∈ fs, f < 256) → pack fs < 256 ^ fs.length
  | [], _ => by simp [pack]
  | f :: fs, h => by
      have h1 := pack_lt (fs := fs) (fun g hg => h g (List.mem_cons_of_mem _ hg))
      have h2 := h f (List.mem_cons_self ..)
      rw [List.length_cons, Nat.pow_succ]
      unfold pack
      omega

theorem byte_op (a b x y : Nat) (hx : x < 256) (hy : y < 256) :
    (x + 256 * a) &&& (y + 256 * b) = (x &&& y) + 256 * (a &&& b) ∧ (x + 256 * a) ||| (y + 256 * b) = (x ||| y) + 256 * (a ||| b) ∧
      (x + 256 * a) ^^^ (y + 256 * b) = (x ^^^ y) + 256 * (a ^^^ b) := by
  have e : (256 : Nat) = 2 ^ 8 := rfl
  have h1 : x &&& y < 2 ^ 8 := Nat.and_lt_two_pow _ hy
  have h2 : x ||| y < 2 ^ 8 := Nat.or_lt_two_pow hx hy
  have h3 : x ^^^ y < 2 ^ 8 := Nat.xor_lt_two_pow hx hy
  refine ⟨?_, ?_, ?_⟩ <;> apply Nat.eq_of_testBit_eq <;> intro j
  · rw [Nat.testBit_and, Nat.add_comm x, Nat.add_comm y, Nat.add_comm (x &&& y), e, Nat.testBit_two_pow_mul_add _ hx,
      Nat.testBit_two_pow_mul_add _ hy, Nat.testBit_two_pow_mul_add _ h1]
    split <;> simp
  · rw [Nat.testBit_or, Nat.add_comm x, Nat.add_comm y, Nat.add_comm (x ||| y), e, Nat.testBit_two_pow_mul_add _ hx,
      Nat.testBit_two_pow_mul_add _ hy, Nat.testBit_two_pow_mul_add _ h2]
    split <;> simp
  · rw [Nat.testBit_xor, Nat.add_comm x, Nat.add_comm y, Nat.add_comm (x ^^^ y), e, Nat.testBit_two_pow_mul_add _ hx,
      Nat.testBit_two_pow_mul_add _ hy, Nat.testBit_two_pow_mul_add _ h3]
    split <;> simp

theorem pack_and : ∀ {fs gs : List Nat}, (∀ f ∈ fs, f < 256) → (∀ g ∈ gs, g < 256) → fs.length = gs.length →
    pack fs &&& pack gs = pack (List.zipWith (· &&& ·) fs gs)
  | [], gs, _, _, _ => by simp [pack]
  | f :: fs, [], _, _, h => by simp at h
  | f :: fs, g :: gs, hf, hg, h => by
      unfold pack
      rw [(byte_op _ _ _ _ (hf f (List.mem_cons_self ..)) (hg g (List.mem_cons_self ..))).1,
        pack_and (fun x hx => hf x (List.mem_cons_of_mem _ hx)) (fun x hx => hg x (List.mem_cons_of_mem _ hx)) (by simpa using h)]
      rfl

theorem pack_or : ∀ {fs gs : List Nat}, (∀ f ∈ fs, f < 256) → (∀ g ∈ gs, g < 256) → fs.length = gs.length →
    pack fs ||| pack gs = pack (List.zipWith (· ||| ·) fs gs)
  | [], [], _, _, _ => by simp [pack]
  | [], _ :: _, _, _, h => by simp at h
  | f :: fs, [], _, _, h => by simp at h
  | f :: fs, g :: gs, hf, hg, h => by
      unfold pack
      rw [(byte_op _ _ _ _ (hf f (List.mem_cons_self ..)) (hg g (List.mem_cons_self ..))).2.1,
        pack_or (fun x hx => hf x (List.mem_cons_of_mem _ hx)) (fun x hx => hg x (List.mem_cons_of_mem _ hx)) (by simpa using h)]
      rfl

theorem pack_xor : ∀ {fs gs : List Nat}, (∀ f ∈ fs, f < 256) → (∀ g ∈ gs, g < 256) → fs.length = gs.length →
    pack fs ^^^ pack gs = pack (List.zipWith (· ^^^ ·) fs gs)
  | [], [], _, _, _ => by simp [pack]
  | [], _ :: _, _, _, h => by simp at h
  | f :: fs, [], _, _, h => by simp at h
  | f :: fs, g :: gs, hf, hg, h => by
      unfold pack
      rw [(byte_op _ _ _ _ (hf f (List.mem_cons_self ..)) (hg g (List.mem_cons_self ..))).2.2,
        pack_xor (fun x hx => hf x (List.mem_cons_of_mem _ hx)) (fun x hx => hg x (List.mem_cons_of_mem _ hx)) (by simpa using h)]
      rfl

theorem pack_mul (c : Nat) : ∀ fs : List Nat, pack (fs.map (c * ·)) = c * pack fs
  | [] => by simp [pack]
  | f :: fs => by
      simp only [List.map_cons, pack]
      rw [pack_mul c fs, Nat.mul_add, ← Nat.mul_assoc, ← Nat.mul_assoc, Nat.mul_comm c 256]

theorem pack_dvd (c : Nat) (hc : 0 < c) {fs : List Nat} (h : ∀ f ∈ fs, c ∣ f) : pack fs / c = pack (fs.map (· / c)) := by
  have : fs = (fs.map (· / c)).map (c * ·) := by
    rw [List.map_map]
    conv => lhs; rw [← List.map_id fs]
    apply List.map_congr_left
    intro f hf
    exact (Nat.mul_div_cancel' (h f hf)).symm
  conv => lhs; rw [this, pack_mul]
  exact Nat.mul_div_cancel_left _ hc

theorem pack_le (f g : Nat → Nat) : ∀ (bs : List Nat), (∀ b ∈ bs, g b ≤ f b) → pack (bs.map g) ≤ pack (bs.map f)
  | [], _ => Nat.le_refl _
  | b :: bs, h => by
      simp only [List.map_cons, pack]
      have h1 := pack_le f g bs (fun c hc => h c (List.mem_cons_of_mem _ hc))
      have h2 := h b (List.mem_cons_self ..)
      omega

theorem pack_sub (f g : Nat → Nat) : ∀ (bs : List Nat), (∀ b ∈ bs, g b ≤ f b) →
    pack (bs.map f) - pack (bs.map g) = pack (bs.map (fun b => f b - g b))
  | [], _ => rfl
  | b :: bs, h => by
      simp only [List.map_cons, pack]
      have h1 := pack_sub f g bs (fun c hc => h c (List.mem_cons_of_mem _ hc))
      have h2 := h b (List.mem_cons_self ..)
      have h3 := pack_le f g bs (fun c hc => h c (List.mem_cons_of_mem _ hc))
      omega

theorem pack_add (f g : Nat → Nat) : ∀ (bs : List Nat), pack (bs.map f) + pack (bs.map g) = pack (bs.map (fun b => f b + g b))
  | [] => rfl
  | b :: bs => by
      simp only [List.map_cons, pack]
      have h1 := pack_add f g bs
      omega

theorem pack_div : ∀ {fs : List Nat}, (∀ f ∈ fs, f < 256) → ∀ j, pack fs / 256 ^ j = pack (fs.drop j)
  | fs, _, 0 => by simp
  | [], _, j + 1 => by simp [pack]
  | f :: fs, h, j + 1 => by
      have h1 := h f (List.mem_cons_self ..)
      rw [List.drop_succ_cons, ← pack_div (fs := fs) (fun g hg => h g (List.mem_cons_of_mem _ hg)) j, Nat.pow_succ', ← Nat.div_div_eq_div_mul]
      rw [show pack (f :: fs) = f + 256 * pack fs from rfl, show (f + 256 * pack fs) / 256 = pack fs from by omega]

theorem pack_byte {fs : List Nat} (h : ∀ f ∈ fs, f < 256) (j : Nat) (hj : j < fs.length) : pack fs / 256 ^ j % 256 = fs[j] := by
  rw [pack_div h, List.drop_eq_getElem_cons hj]
  unfold pack
  have := h fs[j] (List.getElem_mem hj)
  omega

/-- the digits of a number below `256 ^ n` -/
def bytesOf (x : Nat) : Nat → List Nat
  | 0 => []
  | n + 1 => x % 256 :: bytesOf (x / 256) n

theorem bytesOf_length : ∀ (n x : Nat), (bytesOf x n).length = n
  | 0, _ => rfl
  | n + 1, x => by simp [bytesOf, bytesOf_length n]

theorem bytesOf_lt : ∀ (n x : Nat), ∀ f ∈ bytesOf x n, f < 256
  | 0, _, f, h => by simp [bytesOf] at h
  | n + 1, x, f, h => by
      simp only [bytesOf, List.mem_cons] at h
      rcases h with rfl | h
      · omega
      · exact bytesOf_lt n _ f h

theorem pack_bytesOf : ∀ (n x : Nat), x < 256 ^ n → pack (bytesOf x n) = x
  | 0, x, h => by simp [bytesOf, pack] at *; omega
  | n + 1, x, h => by
      rw [Nat.pow_succ] at h
      simp only [bytesOf, pack]
      rw [pack_bytesOf n (x / 256) (by omega)]
      omega

namespace W

/-- the bytes of a word, the least significant first -/
def bytes (x : W) : List Nat := bytesOf x.toNat 8

theorem bytes_length (x : W) : x.bytes.length = 8 := bytesOf_length 8 _
theorem bytes_lt (x : W) : ∀ f ∈ x.bytes, f < 256 := bytesOf_lt 8 _
theorem pack_bytes (x : W) : pack x.bytes = x.toNat := pack_bytesOf 8 _ (by have := x.isLt; exact this)

theorem bytes_getElem (x : W) (i : Nat) (hi : i < 8) : x.bytes[i]'(by rw [bytes_length]; exact hi) = x.toNat / 256 ^ i % 256 := by
  rw [← pack_bytes x, pack_byte x.bytes_lt]

end W
end AC
