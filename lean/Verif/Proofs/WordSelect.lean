import Verif.Proofs.WordOps
/-!
# Counting and finding ones in a word, by bytes
-/
namespace AC
namespace Util

/-- the positions of the ones of some bytes, the first of which starts at bit `8 * i` -/
def onesFrom (i : Nat) : List Nat → List Nat
  | [] => []
  | b :: bs => (byteOnes b).map (8 * i + ·) ++ onesFrom (i + 1) bs

theorem onesFrom_length : ∀ (bs : List Nat) (i : Nat), (onesFrom i bs).length = (bs.map (fun b => (byteOnes b).length)).sum
  | [], _ => rfl
  | b :: bs, i => by simp [onesFrom, onesFrom_length bs]

theorem byte_bit (x : W) (i j : Nat) (hj : j < 8) : (x.toNat / 256 ^ i % 256).testBit j = x.getLsbD (8 * i + j) := by
  rw [show (256 : Nat) = 2 ^ 8 from rfl, Nat.testBit_mod_two_pow, ← Nat.pow_mul, Nat.testBit_div_two_pow, BitVec.getLsbD, Nat.add_comm]
  simp [hj]

theorem filter_byte (x : W) (i : Nat) : ((List.range 8).map (8 * i + ·)).filter x.getLsbD = (byteOnes (x.toNat / 256 ^ i % 256)).map (8 * i + ·) := by
  unfold byteOnes
  rw [List.filter_map]
  congr 1
  apply List.filter_congr
  intro j hj
  rw [List.mem_range] at hj
  exact (byte_bit x i j hj).symm

theorem ones_bytes (x : W) : x.ones = onesFrom 0 x.bytes := by
  have e : List.range 64 = ((List.range 8).map (fun i => (List.range 8).map (8 * i + ·))).flatten := by decide
  unfold W.ones
  rw [e, show List.range 8 = [0, 1, 2, 3, 4, 5, 6, 7] from rfl]
  simp only [List.map_cons, List.map_nil, List.flatten_cons, List.flatten_nil, List.filter_append, List.append_nil]
  have hb : x.bytes = [x.toNat / 256 ^ 0 % 256, x.toNat / 256 ^ 1 % 256, x.toNat / 256 ^ 2 % 256, x.toNat / 256 ^ 3 % 256,
      x.toNat / 256 ^ 4 % 256, x.toNat / 256 ^ 5 % 256, x.toNat / 256 ^ 6 % 256, x.toNat / 256 ^ 7 % 256] := by
    obtain ⟨b0, b1, b2, b3, b4, b5, b6, b7, h⟩ := eight x.bytes_length
    rw [← x.bytes_getElem 0 (by omega), ← x.bytes_getElem 1 (by omega), ← x.bytes_getElem 2 (by omega), ← x.bytes_getElem 3 (by omega),
      ← x.bytes_getElem 4 (by omega), ← x.bytes_getElem 5 (by omega), ← x.bytes_getElem 6 (by omega), ← x.bytes_getElem 7 (by omega)]
    simp only [h]
    rfl
  rw [hb]
  simp only [onesFrom, List.append_nil, Nat.zero_add, Nat.reduceAdd]
  have f : ∀ i, ([0, 1, 2, 3, 4, 5, 6, 7].map (8 * i + ·)).filter x.getLsbD = (byteOnes (x.toNat / 256 ^ i % 256)).map (8 * i + ·) :=
    filter_byte x
  have f0 := f 0; have f1 := f 1; have f2 := f 2; have f3 := f 3
  have f4 := f 4; have f5 := f 5; have f6 := f 6; have f7 := f 7
  simp only [List.map_cons, List.map_nil] at f0 f1 f2 f3 f4 f5 f6 f7
  rw [f0, f1, f2, f3, f4, f5, f6, f7]

theorem byteOnes_le (b : Nat) : (byteOnes b).length ≤ 8 := by
  have := List.length_filter_le b.testBit (List.range 8)
  simpa [byteOnes] using this

/-- the number of ones of every byte -/
def counts (x : W) : List Nat := x.bytes.map (fun b => (byteOnes b).length)

theorem counts_length (x : W) : (counts x).length = 8 := by simp [counts, W.bytes_length]

theorem counts_le (x : W) : ∀ c ∈ counts x, c ≤ 8 := by
  intro c hc
  obtain ⟨b, _, rfl⟩ := List.mem_map.mp hc
  exact byteOnes_le b

theorem sum_le_of {cs : List Nat} (m : Nat) (h : ∀ c ∈ cs, c ≤ m) : cs.sum ≤ m * cs.length := by
  induction cs with
  | nil => simp
  | cons c cs ih =>
      have := ih (fun d hd => h d (List.mem_cons_of_mem _ hd))
      have := h c (List.mem_cons_self ..)
      rw [List.sum_cons, List.length_cons, Nat.mul_add]
      omega

theorem counts_sum (x : W) : (counts x).sum = x.popcount := by
  unfold W.popcount
  rw [ones_bytes, onesFrom_length]
  rfl

theorem counts_sum_le (x : W) : (counts x).sum ≤ 64 := by
  have := sum_le_of 8 (counts_le x)
  rw [counts_length] at this
  omega

theorem popcount_spec (x : W) : (popcount x).toNat = x.popcount := by
  unfold popcount
  rw [bytesSum_toNat (counts_length x) (byteCounts_toNat x) (by have := counts_sum_le x; omega), counts_sum]

/-! ## Select -/

/-- ones in the first `j` bytes -/
def upto (x : W) (j : Nat) : Nat := ((counts x).take j).sum

theorem upto_succ (x : W) (j : Nat) (hj : j < 8) : upto x (j + 1) = upto x j + (byteOnes (x.bytes[j]'(by rw [W.bytes_length]; exact hj))).length := by
  unfold upto
  rw [List.take_add_one, List.sum_append]
  rw [List.getElem?_eq_getElem (by rw [counts_length]; exact hj)]
  simp [counts]

theorem upto_mono (x : W) {i j : Nat} (h : i ≤ j) : upto x i ≤ upto x j := by
  unfold upto
  have : ((counts x).take j).sum = (((counts x).take j).take i).sum + (((counts x).take j).drop i).sum := by
    rw [← List.sum_append, List.take_append_drop]
  rw [List.take_take, Nat.min_eq_left h] at this
  omega

theorem upto_le (x : W) (j : Nat) : upto x j ≤ 64 := by
  have h := upto_mono x (Nat.le_max_left j 8)
  have h2 : upto x (max j 8) = (counts x).sum := by unfold upto; rw [List.take_of_length_le (by rw [counts_length]; omega)]
  have := counts_sum_le x
  omega

theorem upto_eight (x : W) : upto x 8 = x.popcount := by
  unfold upto; rw [List.take_of_length_le (by rw [counts_length]; omega), counts_sum]

theorem onesFrom_get : ∀ (bs : List Nat) (i j r : Nat) (hj : j < bs.length), r < (byteOnes bs[j]).length →
    (onesFrom i bs)[((bs.map (fun b => (byteOnes b).length)).take j).sum + r]? = ((byteOnes bs[j])[r]?).map (8 * (i + j) + ·)
  | [], i, j, r, hj, _ => by simp at hj
  | b :: bs, i, 0, r, hj, hr => by
      simp only [List.getElem_cons_zero] at hr ⊢
      simp only [List.take_zero, List.sum_nil, Nat.zero_add, onesFrom, Nat.add_zero]
      rw [List.getElem?_append_left (by simpa using hr), List.getElem?_map]
  | b :: bs, i, j + 1, r, hj, hr => by
      simp only [List.getElem_cons_succ] at hr ⊢
      simp only [List.map_cons, List.take_succ_cons, List.sum_cons, onesFrom]
      rw [List.getElem?_append_right (by simp; omega), List.length_map, show i + (j + 1) = i + 1 + j from by omega,
        ← onesFrom_get bs (i + 1) j r (by simpa using hj) hr]
      congr 1
      omega

theorem select_byte (x : W) (j r : Nat) (hj : j < 8) (hr : r < (byteOnes (x.bytes[j]'(by rw [W.bytes_length]; exact hj))).length) :
    x.select (upto x j + r) = 8 * j + (byteOnes (x.bytes[j]'(by rw [W.bytes_length]; exact hj)))[r] := by
  unfold W.select
  rw [List.getD_eq_getElem?_getD, ones_bytes]
  have := onesFrom_get x.bytes 0 j r (by rw [W.bytes_length]; exact hj) hr
  rw [show ((x.bytes.map (fun b => (byteOnes b).length)).take j).sum = upto x j from rfl] at this
  rw [this, List.getElem?_eq_getElem hr]
  simp

theorem table_spec : ∀ b, b < 256 → ∀ r, r < 8 → ∀ v, (byteOnes b)[r]? = some v → selectInByte[b + 256 * r]? = some v := by
  have h : ∀ b : Fin 256, ∀ r : Fin 8, (byteOnes b.val)[r.val]? = none ∨ selectInByte[b.val + 256 * r.val]? = (byteOnes b.val)[r.val]? := by
    decide +kernel
  intro b hb r hr v hv
  rcases h ⟨b, hb⟩ ⟨r, hr⟩ with h1 | h1
  · simp only at h1; rw [h1] at hv; cases hv
  · simp only at h1; rw [h1]; exact hv

/-- the index of the byte holding the one of rank `k` -/
theorem find_byte (x : W) {k : Nat} (hk : k < x.popcount) : ∃ j, j < 8 ∧ upto x j ≤ k ∧ k < upto x (j + 1) := by
  have h0 : upto x 0 ≤ k := by simp [upto]
  have h8 : k < upto x 8 := by rw [upto_eight]; exact hk
  have : ∀ n, k < upto x n → ∃ j, j < n ∧ upto x j ≤ k ∧ k < upto x (j + 1) := by
    intro n
    induction n with
    | zero => intro h; omega
    | succ n ih =>
        intro h
        by_cases hn : upto x n ≤ k
        · exact ⟨n, by omega, hn, h⟩
        · obtain ⟨j, h1, h2⟩ := ih (by omega)
          exact ⟨j, by omega, h2⟩
  exact this 8 h8

/-- the comparison of the running counts with `k` -/
theorem geqK_toNat (x : W) {k : Nat} (hk : k < 128) :
    (((BitVec.ofNat 64 k * ones8 ||| msbs8) - byteCounts x * ones8) &&& msbs8).toNat =
      pack ((List.range 8).map (fun j => if upto x (j + 1) ≤ k then 128 else 0)) := by
  have hs : (byteCounts x * ones8).toNat = pack ((List.range 8).map (fun j => upto x (j + 1))) :=
    sums_toNat (counts_length x) (byteCounts_toNat x) (by have := counts_sum_le x; omega)
  have hk8 : (BitVec.ofNat 64 k * ones8).toNat = pack (List.replicate 8 k) := by
    rw [BitVec.toNat_mul, BitVec.toNat_ofNat, Nat.mod_eq_of_lt (by omega : k < 2 ^ 64), show ones8.toNat = 72340172838076673 from by decide +kernel]
    simp only [List.replicate, pack8]
    omega
  have hor : (BitVec.ofNat 64 k * ones8 ||| msbs8).toNat = pack ((List.range 8).map (fun _ => k + 128)) := by
    rw [BitVec.toNat_or, hk8, show msbs8.toNat = pack (List.replicate (List.replicate 8 k).length 128) from by simp only [List.length_replicate]; decide +kernel,
      pack_or_const (by intro b hb; rw [List.mem_replicate] at hb; omega) _ (by omega)]
    have e : k ||| 128 = k + 128 := by
      have := Nat.two_pow_add_eq_or_of_lt (i := 7) (b := k) (by omega) 1
      rw [Nat.mul_one] at this
      rw [Nat.or_comm, ← this]; omega
    simp only [List.replicate, List.map_cons, List.map_nil, e]
    rfl
  have hle : ∀ j ∈ List.range 8, upto x (j + 1) ≤ k + 128 := fun j _ => by have := upto_le x (j + 1); omega
  have hsub : ((BitVec.ofNat 64 k * ones8 ||| msbs8) - byteCounts x * ones8).toNat = pack ((List.range 8).map (fun j => k + 128 - upto x (j + 1))) := by
    rw [BitVec.toNat_sub_of_le]
    · rw [hor, hs, pack_sub _ _ _ hle]
    · rw [BitVec.le_def, hor, hs]
      exact pack_le _ _ _ hle
  rw [BitVec.toNat_and, hsub, show msbs8.toNat = pack (List.replicate ((List.range 8).map (fun j => k + 128 - upto x (j + 1))).length 128) from by
    rw [List.length_map, List.length_range]; decide +kernel, pack_and_const _ _ (by omega), List.map_map]
  · congr 1
    apply List.map_congr_left
    intro j _
    simp only [Function.comp]
    have h1 : k + 128 - upto x (j + 1) < 256 := by omega
    have h2 : ∀ b, b < 256 → b &&& 128 = if 128 ≤ b then 128 else 0 :=
      all_bytes (P := fun b => b &&& 128 = if 128 ≤ b then 128 else 0) (by decide +kernel)
    rw [h2 _ h1]
    have := upto_le x (j + 1)
    split <;> split <;> omega
  · intro f hf
    obtain ⟨j, _, rfl⟩ := List.mem_map.mp hf
    omega

theorem popcount_geq {y : W} {p : Nat → Bool} (hy : y.toNat = pack ((List.range 8).map (fun j => if p j then 128 else 0))) :
    y.popcount = ((List.range 8).filter p).length := by
  have hbl : ∀ f ∈ (List.range 8).map (fun j => if p j then 128 else 0), f < 256 := by
    intro f hf
    obtain ⟨j, _, rfl⟩ := List.mem_map.mp hf
    split <;> omega
  have hb : y.bytes = (List.range 8).map (fun j => if p j then 128 else 0) := by
    apply List.ext_getElem (by rw [W.bytes_length]; simp)
    intro i h1 h2
    rw [W.bytes_length] at h1
    rw [y.bytes_getElem i h1, hy, pack_byte hbl i h2]
  rw [← counts_sum]
  unfold counts
  rw [hb, List.map_map]
  have e1 : (byteOnes 128).length = 1 := by decide
  have e0 : (byteOnes 0).length = 0 := by decide
  have : ∀ l : List Nat, (l.map ((fun b => (byteOnes b).length) ∘ fun j => if p j then 128 else 0)).sum = (l.filter p).length := by
    intro l
    induction l with
    | nil => rfl
    | cons a l ih =>
        rw [List.map_cons, List.sum_cons, ih, List.filter_cons]
        simp only [Function.comp]
        cases hp : p a
        · simp [e0]
        · simp [e1]; omega
  exact this _

theorem count_prefix (p : Nat → Bool) (n j : Nat) (hj : j ≤ n) (h1 : ∀ i, i < j → p i = true) (h2 : ∀ i, j ≤ i → p i = false) :
    ((List.range n).filter p).length = j := by
  induction n with
  | zero => have : j = 0 := by omega
            subst this; rfl
  | succ n ih =>
      rw [List.range_succ, List.filter_append, List.length_append]
      by_cases hn : j = n + 1
      · have hpn : p n = true := h1 n (by omega)
        have : (List.range n).filter p = List.range n := by
          rw [List.filter_eq_self]
          intro a ha
          rw [List.mem_range] at ha
          exact h1 a (by omega)
        rw [this]
        simp [hpn]; omega
      · have hpn : p n = false := h2 n (by omega)
        rw [ih (by omega)]
        simp [hpn]

/-- the place of the byte that holds the one of rank `k`; 64 if there are no more than `k` ones -/
theorem place_spec (x : W) {k : Nat} (hk : k < 128) {j : Nat} (hj : j ≤ 8) (h1 : upto x j ≤ k) (h2 : j < 8 → k < upto x (j + 1)) :
    (popcount ((((BitVec.ofNat 64 k * ones8 ||| msbs8) - byteCounts x * ones8) &&& msbs8)) * 8).toNat = 8 * j := by
  have hp := popcount_geq (p := fun i => decide (upto x (i + 1) ≤ k) && decide (i < 8)) (y := (((BitVec.ofNat 64 k * ones8 ||| msbs8) - byteCounts x * ones8) &&& msbs8)) (by
    rw [geqK_toNat x hk]
    congr 1
    apply List.map_congr_left
    intro i hi
    rw [List.mem_range] at hi
    simp [hi])
  rw [count_prefix _ 8 j hj] at hp
  · rw [BitVec.toNat_mul, popcount_spec, hp]
    simp; omega
  · intro i hi
    have := upto_mono x (i := i + 1) (j := j) (by omega)
    simp; omega
  · intro i hi
    by_cases h8 : i < 8
    · have := upto_mono x (i := j + 1) (j := i + 1) (by omega)
      have := h2 (by omega)
      simp; omega
    · simp [h8]

theorem selectInWord_spec (x : W) {k : Nat} (hk : k < x.popcount) : selectInWord x (BitVec.ofNat 64 k) = .ok (x.select k) := by
  have hk64 : k < 64 := by have := counts_sum_le x; rw [counts_sum] at this; omega
  obtain ⟨j, hj, h1, h2⟩ := find_byte x hk
  have hpl := place_spec x (by omega : k < 128) (by omega : j ≤ 8) h1 (fun _ => h2)
  have hbj : x.toNat / 256 ^ j % 256 = x.bytes[j]'(by rw [W.bytes_length]; exact hj) := (x.bytes_getElem j hj).symm
  have hblt : x.bytes[j]'(by rw [W.bytes_length]; exact hj) < 256 := x.bytes_lt _ (List.getElem_mem _)
  have hr := upto_succ x j hj
  have hsel := select_byte x j (k - upto x j) hj (by omega)
  rw [show upto x j + (k - upto x j) = k from by omega] at hsel
  have hr8 : k - upto x j < 8 := by have := byteOnes_le (x.bytes[j]'(by rw [W.bytes_length]; exact hj)); omega
  have hs : (byteCounts x * ones8).toNat = pack ((List.range 8).map (fun j => upto x (j + 1))) :=
    sums_toNat (counts_length x) (byteCounts_toNat x) (by have := counts_sum_le x; omega)
  have hlast : (((byteCounts x * ones8) <<< 8) >>> (8 * j) &&& (0xFF : W)).toNat = upto x j := by
    have hshift : ((byteCounts x * ones8) <<< 8).toNat = pack ((List.range 8).map (upto x)) := by
      rw [BitVec.toNat_shiftLeft, hs, Nat.shiftLeft_eq, show List.range 8 = [0, 1, 2, 3, 4, 5, 6, 7] from rfl]
      simp only [List.map_cons, List.map_nil, pack8, Nat.zero_add, Nat.reduceAdd]
      have l0 : upto x 0 = 0 := by simp [upto]
      have l1 := upto_le x 1; have l2 := upto_le x 2; have l3 := upto_le x 3; have l4 := upto_le x 4
      have l5 := upto_le x 5; have l6 := upto_le x 6; have l7 := upto_le x 7
      omega
    rw [BitVec.toNat_and, BitVec.toNat_ushiftRight, hshift, show (0xFF : W).toNat = 2 ^ 8 - 1 from by decide, Nat.and_two_pow_sub_one_eq_mod,
      Nat.shiftRight_eq_div_pow, Nat.pow_mul, show (2 ^ 8 : Nat) = 256 from rfl, pack_byte _ j (by simpa using hj)]
    · simp
    · intro f hf
      obtain ⟨i, _, rfl⟩ := List.mem_map.mp hf
      have := upto_le x i
      omega
  have hrank : (BitVec.ofNat 64 k - (((byteCounts x * ones8) <<< 8) >>> (8 * j) &&& (0xFF : W))).toNat = k - upto x j := by
    rw [BitVec.toNat_sub_of_le]
    · rw [hlast]; simp; omega
    · rw [BitVec.le_def, hlast]; simp; omega
  have hidx : (((x >>> (8 * j)) &&& (0xFF : W)) ||| ((BitVec.ofNat 64 k - (((byteCounts x * ones8) <<< 8) >>> (8 * j) &&& (0xFF : W))) <<< 8)).toNat =
      x.bytes[j]'(by rw [W.bytes_length]; exact hj) + 256 * (k - upto x j) := by
    rw [BitVec.toNat_or, BitVec.toNat_and, BitVec.toNat_ushiftRight, BitVec.toNat_shiftLeft, hrank, show (0xFF : W).toNat = 2 ^ 8 - 1 from by decide,
      Nat.and_two_pow_sub_one_eq_mod, Nat.shiftRight_eq_div_pow, Nat.pow_mul, show (2 ^ 8 : Nat) = 256 from rfl, hbj, Nat.shiftLeft_eq,
      Nat.mod_eq_of_lt (by omega)]
    have := Nat.two_pow_add_eq_or_of_lt (i := 8) (b := x.bytes[j]'(by rw [W.bytes_length]; exact hj)) hblt (k - upto x j)
    rw [Nat.or_comm, Nat.mul_comm _ (2 ^ 8), ← this]
    omega
  have htab := table_spec _ hblt (k - upto x j) hr8 _ (List.getElem?_eq_getElem (by omega : k - upto x j < (byteOnes (x.bytes[j]'(by rw [W.bytes_length]; exact hj))).length))
  unfold selectInWord
  simp only [hpl, hidx]
  rw [if_neg (by omega : ¬ 64 ≤ 8 * j)]
  rw [rd_of_getElem? htab, hsel]
  rfl

/-- for a rank that is too big the place is 64, and shifting by it is undefined -/
theorem selectInWord_beyond (x : W) {k : Nat} (hk : x.popcount ≤ k) (hk2 : k < 128) : selectInWord x (BitVec.ofNat 64 k) = .error .oob := by
  have hpl := place_spec x hk2 (Nat.le_refl 8) (by rw [upto_eight]; exact hk) (fun h => absurd h (by omega))
  unfold selectInWord
  simp only [hpl]
  rfl

end Util
end AC
