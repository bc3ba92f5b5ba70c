import Verif.Model.BitVector
import Verif.Spec.Bits
/-! # Bits of words and of bit vectors -/
namespace AC

theorem all_getLsbD (j : Nat) : W.all.getLsbD j = decide (j < 64) := by
  unfold W.all; exact BitVec.getLsbD_allOnes

theorem maskW_toNat (w : Nat) (h : w ≤ 64) : (maskW w).toNat = 2 ^ w - 1 := by
  unfold maskW
  split
  · subst w; simp [W.all]
  · have hw : w < 64 := by omega
    have : (2:Nat)^w < 2^64 := Nat.pow_lt_pow_right (by omega) hw
    have h1 : 1 ≤ 2 ^ w := Nat.one_le_two_pow
    have e1 : (1 : W).toNat = 1 := rfl
    rw [BitVec.toNat_sub, BitVec.toNat_shiftLeft, e1, Nat.shiftLeft_eq, Nat.one_mul, Nat.mod_eq_of_lt this]
    omega

theorem maskW_getLsbD (w j : Nat) (h : w ≤ 64) : (maskW w).getLsbD j = decide (j < w) := by
  rw [← BitVec.testBit_toNat, maskW_toNat w h, Nat.testBit_two_pow_sub_one]

theorem all_shl_getLsbD (p j : Nat) : (W.all <<< p).getLsbD j = (decide (p ≤ j) && decide (j < 64)) := by
  rw [BitVec.getLsbD_shiftLeft, all_getLsbD]
  by_cases h1 : j < 64 <;> by_cases h2 : j < p <;> simp [h1, h2] <;> omega

theorem bitAt_append (ws : List W) (w : W) (i : Nat) :
    bitAt (ws ++ [w]) i = if i / 64 = ws.length then w.getLsbD (i % 64) else bitAt ws i := by
  unfold bitAt
  split
  · rename_i h; simp [h, List.getD_eq_getElem?_getD]
  · rename_i h
    rcases Nat.lt_or_gt_of_ne h with h | h
    · simp [List.getD_eq_getElem?_getD, List.getElem?_append_left h]
    · rw [List.getD_eq_getElem?_getD, List.getD_eq_getElem?_getD, List.getElem?_eq_none (by simp; omega),
        List.getElem?_eq_none (by omega)]

theorem bitAt_append_zeros (ws : List W) (n i : Nat) : bitAt (ws ++ List.replicate n 0) i = bitAt ws i := by
  unfold bitAt
  congr 1
  rw [List.getD_eq_getElem?_getD, List.getD_eq_getElem?_getD, List.getElem?_append]
  split
  · rfl
  · rename_i h
    rw [List.getElem?_eq_none (l := ws) (by omega), List.getElem?_replicate]
    split <;> rfl

theorem bitAt_append_list (ws vs : List W) (i : Nat) :
    bitAt (ws ++ vs) i = if i < 64 * ws.length then bitAt ws i else bitAt vs (i - 64 * ws.length) := by
  unfold bitAt
  split
  · rename_i h
    rw [List.getD_eq_getElem?_getD, List.getD_eq_getElem?_getD, List.getElem?_append_left (by omega)]
  · rename_i h
    rw [List.getD_eq_getElem?_getD, List.getD_eq_getElem?_getD, List.getElem?_append_right (by omega)]
    have h1 : (i - 64 * ws.length) / 64 = i / 64 - ws.length := by omega
    have h2 : (i - 64 * ws.length) % 64 = i % 64 := by omega
    rw [h1, h2]

theorem bitAt_of_length_le (ws : List W) (i : Nat) (h : 64 * ws.length ≤ i) : bitAt ws i = false := by
  unfold bitAt
  rw [List.getD_eq_getElem?_getD, List.getElem?_eq_none (by omega)]
  simp

theorem bitAt_set (ws : List W) (k : Nat) (w : W) (i : Nat) (hk : k < ws.length) :
    bitAt (ws.set k w) i = if i / 64 = k then w.getLsbD (i % 64) else bitAt ws i := by
  unfold bitAt
  rw [List.getD_eq_getElem?_getD, List.getD_eq_getElem?_getD, List.getElem?_set]
  by_cases h : k = i / 64
  · subst h; simp [hk]
  · have h' : ¬ i / 64 = k := fun e => h e.symm
    simp [h, h']

theorem bitAt_word (ws : List W) (k j : Nat) (hk : k < ws.length) (hj : j < 64) :
    (ws[k]'hk).getLsbD j = bitAt ws (64 * k + j) := by
  unfold bitAt
  have h1 : (64 * k + j) / 64 = k := by omega
  have h2 : (64 * k + j) % 64 = j := by omega
  rw [h1, h2, List.getD_eq_getElem?_getD, List.getElem?_eq_getElem hk]; rfl

theorem getLsbD_ge (x : W) (j : Nat) (h : 64 ≤ j) : x.getLsbD j = false := BitVec.getLsbD_of_ge x j h

theorem ext_getLsbD {x y : W} (h : ∀ j, j < 64 → x.getLsbD j = y.getLsbD j) : x = y :=
  BitVec.eq_of_getLsbD_eq h

/-- `x < 2^len` in bits -/
theorem getLsbD_of_lt (x : W) (len j : Nat) (hx : x.toNat < 2 ^ len) (hj : len ≤ j) : x.getLsbD j = false := by
  rw [← BitVec.testBit_toNat]
  exact Nat.testBit_lt_two_pow (Nat.lt_of_lt_of_le hx (Nat.pow_le_pow_right (by omega) hj))

theorem lt_of_getLsbD (x : W) (len : Nat) (h : ∀ j, len ≤ j → x.getLsbD j = false) : x.toNat < 2 ^ len := by
  apply Nat.lt_pow_two_of_testBit
  intro i hi
  rw [BitVec.testBit_toNat]; exact h i hi

theorem valueAt_testBit (ws : List W) (pos len j : Nat) :
    (valueAt ws pos len).testBit j = (decide (j < len) && bitAt ws (pos + j)) := by
  induction len generalizing pos j with
  | zero => simp [valueAt]
  | succ n ih =>
      unfold valueAt
      cases j with
      | zero =>
          rw [Nat.testBit_zero]
          cases h : bitAt ws pos <;> simp [h] <;> omega
      | succ j =>
          rw [Nat.testBit_succ]
          have : ((bitAt ws pos).toNat + 2 * valueAt ws (pos + 1) n) / 2 = valueAt ws (pos + 1) n := by
            cases bitAt ws pos <;> simp <;> omega
          rw [this, ih]
          have e : pos + 1 + j = pos + (j + 1) := by omega
          rw [e]; simp

theorem valueAt_lt (ws : List W) (pos len : Nat) : valueAt ws pos len < 2 ^ len := by
  apply Nat.lt_pow_two_of_testBit
  intro i hi
  rw [valueAt_testBit]; simp; omega

theorem valueAt_congr (ws vs : List W) (pos len : Nat) (h : ∀ j, j < len → bitAt ws (pos + j) = bitAt vs (pos + j)) :
    valueAt ws pos len = valueAt vs pos len := by
  apply Nat.eq_of_testBit_eq
  intro i
  rw [valueAt_testBit, valueAt_testBit]
  by_cases hi : i < len
  · simp [hi, h i hi]
  · simp [hi]

theorem valueAt_eq {ws : List W} {pos len x : Nat} (hx : x < 2 ^ len)
    (h : ∀ j, j < len → bitAt ws (pos + j) = x.testBit j) : valueAt ws pos len = x := by
  apply Nat.eq_of_testBit_eq
  intro i
  rw [valueAt_testBit]
  by_cases hi : i < len
  · simp [hi, h i hi]
  · simp only [hi, decide_false, Bool.false_and]
    rw [Nat.testBit_lt_two_pow (Nat.lt_of_lt_of_le hx (Nat.pow_le_pow_right (by omega) (by omega)))]

/-- a word equal, bit by bit, to a slice -/
theorem toNat_eq_valueAt (w : W) (ws : List W) (pos len : Nat)
    (h : ∀ j, j < 64 → w.getLsbD j = (decide (j < len) && bitAt ws (pos + j))) (hl : len ≤ 64) :
    w.toNat = valueAt ws pos len := by
  apply Nat.eq_of_testBit_eq
  intro i
  rw [valueAt_testBit, BitVec.testBit_toNat]
  by_cases hi : i < 64
  · exact h i hi
  · rw [getLsbD_ge _ _ (by omega)]; simp; omega

/-! ## Builder -/

/-- representation invariant of `bit_vector_builder`: as many words as needed, zero padding -/
structure BVB.WF (v : BVB) : Prop where
  len : v.bits.length = wordsFor v.size
  pad : ∀ i, v.size ≤ i → bitAt v.bits i = false

theorem bitAt_modify_back (ws : List W) (w : W) (i : Nat) (hw : ws ≠ []) :
    bitAt (BVB.orBack ws w) i =
      (bitAt ws i || (decide (i / 64 = ws.length - 1) && w.getLsbD (i % 64))) := by
  have hlen : 0 < ws.length := by cases ws <;> simp_all
  unfold BVB.orBack bitAt
  rw [List.getD_eq_getElem?_getD, List.getD_eq_getElem?_getD, List.getElem?_modify]
  by_cases h : ws.length - 1 = i / 64
  · have hi : i / 64 < ws.length := by omega
    rw [List.getElem?_eq_getElem hi]
    simp [h]
  · have h' : ¬ i / 64 = ws.length - 1 := fun e => h e.symm
    simp [h', h]

theorem orBack_length (ws : List W) (w : W) : (BVB.orBack ws w).length = ws.length := by
  simp [BVB.orBack]

theorem one_shl_getLsbD (b : Bool) (p j : Nat) (hj : j < 64) :
    (((if b then 1 else 0 : W)) <<< p).getLsbD j = (decide (j = p) && b) := by
  rw [BitVec.getLsbD_shiftLeft]
  cases b
  · simp
  · by_cases h : j < p
    · have h2 : ¬ j = p := by omega
      simp [h, h2]
    · simp only [hj, h, decide_true, Bool.not_false, Bool.and_true, if_true]
      by_cases h2 : j = p
      · subst h2; simp
      · have h3 : ¬ j - p = 0 := by omega
        simp [h2, BitVec.getLsbD_one, h3]

theorem BVB.empty_wf : BVB.empty.WF := ⟨by simp [BVB.empty, wordsFor], by intro i _; simp [BVB.empty, bitAt]⟩

theorem BVB.pushBack_bitAt (v : BVB) (b : Bool) (h : v.WF) (i : Nat) :
    bitAt (v.pushBack b).bits i = if i = v.size then b else bitAt v.bits i := by
  have hl := h.len
  unfold wordsFor at hl
  unfold BVB.pushBack
  simp only
  split
  · rename_i h0
    rw [bitAt_modify_back _ _ _ (by simp), one_shl_getLsbD _ _ _ (Nat.mod_lt _ (by omega)), bitAt_append]
    by_cases hi : i = v.size
    · subst hi
      simp only [List.length_append, List.length_cons, List.length_nil]
      have : v.size / 64 = v.bits.length := by omega
      simp [this]
    · simp only [hi, if_false, List.length_append, List.length_cons, List.length_nil]
      by_cases h1 : i / 64 = v.bits.length
      · have h2 : ¬ i % 64 = v.size % 64 := by omega
        have := h.pad i (by omega)
        simp [h1, h2, this]
      · simp [h1]
  · rename_i h0
    have hne : v.bits ≠ [] := by intro e; simp [e] at hl; omega
    rw [bitAt_modify_back _ _ _ hne, one_shl_getLsbD _ _ _ (Nat.mod_lt _ (by omega))]
    by_cases hi : i = v.size
    · subst hi
      have h1 : v.size / 64 = v.bits.length - 1 := by omega
      have := h.pad v.size (by omega)
      simp [h1, this]
    · simp only [hi, if_false]
      by_cases h1 : i / 64 = v.bits.length - 1
      · have h2 : ¬ i % 64 = v.size % 64 := by omega
        simp [h2]
      · simp [h1]

theorem BVB.pushBack_wf (v : BVB) (b : Bool) (h : v.WF) : (v.pushBack b).WF := by
  have hl := h.len
  unfold wordsFor at hl
  refine ⟨?_, ?_⟩
  · unfold BVB.pushBack wordsFor
    simp only
    split <;> simp [orBack_length] <;> omega
  · intro i hi
    rw [BVB.pushBack_bitAt v b h]
    have : (v.pushBack b).size = v.size + 1 := rfl
    rw [if_neg (by omega)]
    exact h.pad i (by omega)

theorem BVB.zeroExtend_bitAt (v : BVB) (n i : Nat) : bitAt (v.zeroExtend n).bits i = bitAt v.bits i :=
  bitAt_append_zeros _ _ _

theorem BVB.zeroExtend_wf (v : BVB) (n : Nat) (h : v.WF) : (v.zeroExtend n).WF := by
  have hl := h.len
  refine ⟨?_, ?_⟩
  · unfold BVB.zeroExtend
    simp only [List.length_append, List.length_replicate]
    unfold wordsFor at *
    omega
  · intro i hi
    rw [BVB.zeroExtend_bitAt]
    have : (v.zeroExtend n).size = v.size + n := rfl
    exact h.pad i (by omega)

theorem BVB.set_spec (v : BVB) (pos : Nat) (b : Bool) (hp : pos < 64 * v.bits.length) :
    ∃ r, v.set pos b = .ok r ∧ r.size = v.size ∧ r.bits.length = v.bits.length ∧
      ∀ i, bitAt r.bits i = if i = pos then b else bitAt v.bits i := by
  have hw : pos / 64 < v.bits.length := by omega
  unfold BVB.set
  simp only [rd_ok hw, M.ok_bind, wr_ok hw]
  refine ⟨_, rfl, rfl, by simp, ?_⟩
  intro i
  simp only
  rw [bitAt_set _ _ _ _ hw]
  split
  · rename_i hi
    have hj : i % 64 < 64 := Nat.mod_lt _ (by omega)
    rw [BitVec.getLsbD_or, BitVec.getLsbD_and, BitVec.getLsbD_not, one_shl_getLsbD b _ _ hj]
    have := one_shl_getLsbD true (pos % 64) _ hj
    simp only [if_true] at this
    rw [this, bitAt_word _ _ _ hw hj]
    have e : 64 * (pos / 64) + i % 64 = i := by omega
    rw [e]
    by_cases h : i = pos
    · subst h; simp [hj]
    · have : ¬ i % 64 = pos % 64 := by omega
      simp [h, this, hj]
  · rename_i hi
    rw [if_neg (by intro e; subst e; exact hi rfl)]


theorem shl_mask_getLsbD (len p j : Nat) (hl : len ≤ 64) (hj : j < 64) :
    (maskW len <<< p).getLsbD j = (decide (p ≤ j) && decide (j < p + len)) := by
  rw [BitVec.getLsbD_shiftLeft, maskW_getLsbD _ _ hl]
  by_cases h1 : j < p
  · have : ¬ p ≤ j := by omega
    simp [h1, this]
  · have h2 : p ≤ j := by omega
    have h3 : (j - p < len) ↔ j < p + len := by omega
    simp [h1, h2, hj, h3]

theorem shr_mask_getLsbD (len s j : Nat) (hl : len ≤ 64) :
    (maskW len >>> s).getLsbD j = decide (s + j < len) := by
  rw [BitVec.getLsbD_ushiftRight, maskW_getLsbD _ _ hl]

theorem BVB.setBits_spec (v : BVB) (pos : Nat) (x : W) (len : Nat) (hp : pos + len ≤ 64 * v.bits.length)
    (hl : len ≤ 64) (hx : x.toNat < 2 ^ len) :
    ∃ r, v.setBits pos x len = .ok r ∧ r.size = v.size ∧ r.bits.length = v.bits.length ∧
      ∀ i, bitAt r.bits i = if pos ≤ i ∧ i < pos + len then x.getLsbD (i - pos) else bitAt v.bits i := by
  unfold BVB.setBits
  split
  · refine ⟨_, rfl, rfl, rfl, ?_⟩
    intro i
    rw [if_neg (by omega)]
  · rename_i h0
    have hw : pos / 64 < v.bits.length := by omega
    simp only [rd_ok hw, M.ok_bind, wr_ok hw]
    have first : ∀ i, bitAt (v.bits.set (pos / 64)
        ((v.bits[pos / 64] &&& ~~~(maskW len <<< (pos % 64))) ||| (x <<< (pos % 64)))) i =
        if pos ≤ i ∧ i < pos + len ∧ i / 64 = pos / 64 then x.getLsbD (i - pos) else bitAt v.bits i := by
      intro i
      rw [bitAt_set _ _ _ _ hw]
      by_cases hi : i / 64 = pos / 64
      · have hj : i % 64 < 64 := Nat.mod_lt _ (by omega)
        rw [if_pos hi, BitVec.getLsbD_or, BitVec.getLsbD_and, BitVec.getLsbD_not, shl_mask_getLsbD _ _ _ hl hj,
          bitAt_word _ _ _ hw hj, BitVec.getLsbD_shiftLeft]
        have e : 64 * (pos / 64) + i % 64 = i := by omega
        rw [e]
        by_cases h1 : pos ≤ i
        · have h1' : ¬ i % 64 < pos % 64 := by omega
          have h1'' : pos % 64 ≤ i % 64 := by omega
          have e2 : i % 64 - pos % 64 = i - pos := by omega
          rw [e2]
          by_cases h2 : i < pos + len
          · have h2' : i % 64 < pos % 64 + len := by omega
            simp [h1, h2, hi, hj, h1', h1'', h2']
          · have h2' : ¬ i % 64 < pos % 64 + len := by omega
            have := getLsbD_of_lt x len (i - pos) hx (by omega)
            simp [h2, hj, h2', this]
        · have h1' : i % 64 < pos % 64 := by omega
          have h1'' : ¬ pos % 64 ≤ i % 64 := by omega
          simp [h1, hj, h1', h1'']
      · simp [hi]
    split
    · rename_i hs
      have hw1 : pos / 64 + 1 < v.bits.length := by omega
      have hw2 : pos / 64 + 1 < (v.bits.set (pos / 64)
        ((v.bits[pos / 64] &&& ~~~(maskW len <<< (pos % 64))) ||| (x <<< (pos % 64)))).length := by simpa using hw1
      simp only [rd_ok hw2, M.ok_bind, wr_ok hw2]
      refine ⟨_, rfl, rfl, by simp, ?_⟩
      intro i
      simp only
      rw [bitAt_set _ _ _ _ hw2]
      by_cases hi : i / 64 = pos / 64 + 1
      · have hj : i % 64 < 64 := Nat.mod_lt _ (by omega)
        rw [if_pos hi, BitVec.getLsbD_or, BitVec.getLsbD_and, BitVec.getLsbD_not, shr_mask_getLsbD _ _ _ hl,
          bitAt_word _ _ _ hw2 hj, BitVec.getLsbD_ushiftRight, first]
        have e : 64 * (pos / 64 + 1) + i % 64 = i := by omega
        have e2 : 64 - pos % 64 + i % 64 = i - pos := by omega
        rw [e, e2]
        have h3 : ¬ (i / 64 = pos / 64) := by omega
        have h4 : pos ≤ i := by omega
        by_cases h2 : i < pos + len
        · have : i - pos < len := by omega
          simp [h3, h4, h2, this]
        · have h5 : ¬ i - pos < len := by omega
          have := getLsbD_of_lt x len (i - pos) hx (by omega)
          simp [h2, h3, this, h5, hj]
      · rw [if_neg hi, first]
        by_cases h : pos ≤ i ∧ i < pos + len
        · have : i / 64 = pos / 64 := by omega
          simp [h, this]
        · rw [if_neg (by omega), if_neg h]
    · rename_i hs
      refine ⟨_, rfl, rfl, by simp, ?_⟩
      intro i
      simp only
      rw [first]
      by_cases h : pos ≤ i ∧ i < pos + len
      · have : i / 64 = pos / 64 := by omega
        simp [h, this]
      · rw [if_neg (by omega), if_neg h]

theorem BVB.appendBits_bitAt (v : BVB) (x : W) (len : Nat) (h : v.WF) (hl : len ≤ 64) (hx : x.toNat < 2 ^ len) (i : Nat) :
    bitAt (v.appendBits x len).bits i =
      if v.size ≤ i ∧ i < v.size + len then x.getLsbD (i - v.size) else bitAt v.bits i := by
  have hlen := h.len
  unfold wordsFor at hlen
  have hj : i % 64 < 64 := Nat.mod_lt _ (by omega)
  unfold BVB.appendBits
  split
  · rw [if_neg (by omega)]
  · rename_i h0
    simp only
    split
    · rename_i h1
      simp only
      rw [bitAt_append]
      split
      · rename_i h2
        have e : i % 64 = i - v.size := by omega
        rw [e]
        split
        · rfl
        · rw [h.pad i (by omega)]
          exact getLsbD_of_lt x len _ hx (by omega)
      · rename_i h2
        rw [if_neg (by omega)]
    · rename_i h1
      have hne : v.bits ≠ [] := by intro e; simp [e] at hlen; omega
      have key : bitAt (BVB.orBack v.bits (x <<< (v.size % 64))) i =
          if v.size ≤ i ∧ i < v.size + len ∧ i / 64 = v.size / 64 then x.getLsbD (i - v.size) else bitAt v.bits i := by
        rw [bitAt_modify_back _ _ _ hne, BitVec.getLsbD_shiftLeft]
        have e0 : v.bits.length - 1 = v.size / 64 := by omega
        rw [e0]
        by_cases hi : i / 64 = v.size / 64
        · by_cases h2 : v.size ≤ i
          · have h2' : ¬ i % 64 < v.size % 64 := by omega
            have e2 : i % 64 - v.size % 64 = i - v.size := by omega
            have := h.pad i h2
            rw [e2, this]
            by_cases h3 : i < v.size + len
            · simp [hi, h2, h2', h3, hj]
            · have := getLsbD_of_lt x len (i - v.size) hx (by omega)
              simp [h3, this]
          · have h2' : i % 64 < v.size % 64 := by omega
            simp [h2, h2']
        · simp [hi]
      split
      · rename_i h2
        simp only
        rw [bitAt_append, orBack_length, key, BitVec.getLsbD_ushiftRight]
        have e0 : v.bits.length = v.size / 64 + 1 := by omega
        split
        · rename_i h3
          have e : 64 - v.size % 64 + i % 64 = i - v.size := by omega
          rw [e]
          split
          · rfl
          · rw [h.pad i (by omega)]
            exact getLsbD_of_lt x len _ hx (by omega)
        · rename_i h3
          by_cases hh : v.size ≤ i ∧ i < v.size + len
          · rw [if_pos (by omega), if_pos hh]
          · rw [if_neg (by omega), if_neg hh]
      · rename_i h2
        simp only
        rw [key]
        by_cases hh : v.size ≤ i ∧ i < v.size + len
        · rw [if_pos (by omega), if_pos hh]
        · rw [if_neg (by omega), if_neg hh]

theorem BVB.appendBits_size (v : BVB) (x : W) (len : Nat) : (v.appendBits x len).size = v.size + len := by
  unfold BVB.appendBits
  split
  · omega
  · dsimp only; repeat' split
    all_goals rfl

theorem BVB.appendBits_wf (v : BVB) (x : W) (len : Nat) (h : v.WF) (hl : len ≤ 64) (hx : x.toNat < 2 ^ len) :
    (v.appendBits x len).WF := by
  have hlen := h.len
  unfold wordsFor at hlen
  refine ⟨?_, ?_⟩
  · unfold BVB.appendBits wordsFor
    split
    · exact hlen
    · dsimp only; split
      · simp; omega
      · split <;> simp [orBack_length] <;> omega
  · intro i hi
    rw [BVB.appendBits_size] at hi
    rw [BVB.appendBits_bitAt v x len h hl hx, if_neg (by omega)]
    exact h.pad i (by omega)

end AC
