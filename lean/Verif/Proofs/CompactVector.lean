import Verif.Proofs.BitRead
import Verif.Model.CompactVector
/-! # Fixed-width vectors -/
namespace AC

/-- writing a field of `w` bits at `pos` (in word `k`, shift `s`): the bits before are kept, the field is the value -/
theorem field_write (bits : List W) (k s w : Nat) (v : W) (hs : s < 64) (hw1 : 1 ≤ w) (hw : w ≤ 64)
    (hb : 64 * k + s + w ≤ 64 * bits.length) :
    ∃ bits', (do
        let x ← rd bits k
        let bits ← wr bits k ((x &&& ~~~(maskW w <<< s)) ||| (v <<< s))
        if 64 - s < w then do
          let x ← rd bits (k + 1)
          let bits ← wr bits (k + 1) ((x &&& ~~~(maskW w >>> (64 - s))) ||| (v >>> (64 - s)))
          .ok bits
        else .ok bits : M (List W)) = .ok bits' ∧ bits'.length = bits.length ∧
      ∀ i, i < 64 * k + s + w →
        bitAt bits' i = if 64 * k + s ≤ i then v.getLsbD (i - (64 * k + s)) else bitAt bits i := by
  have hk : k < bits.length := by omega
  simp only [rd_ok hk, M.ok_bind, wr_ok hk]
  have first : ∀ i, i / 64 = k → bitAt (bits.set k ((bits[k] &&& ~~~(maskW w <<< s)) ||| (v <<< s))) i =
      if 64 * k + s ≤ i then
        (v.getLsbD (i - (64 * k + s)) || (bitAt bits i && decide (64 * k + s + w ≤ i)))
      else bitAt bits i := by
    intro i hi
    have hj : i % 64 < 64 := Nat.mod_lt _ (by omega)
    rw [bitAt_set _ _ _ _ hk, if_pos hi, BitVec.getLsbD_or, BitVec.getLsbD_and, BitVec.getLsbD_not,
      shl_mask_getLsbD _ _ _ hw hj, bitAt_word _ _ _ hk hj, BitVec.getLsbD_shiftLeft]
    have e : 64 * k + i % 64 = i := by omega
    rw [e]
    by_cases h1 : 64 * k + s ≤ i
    · have a1 : ¬ i % 64 < s := by omega
      have a2 : s ≤ i % 64 := by omega
      have a3 : (i % 64 < s + w) ↔ ¬ (64 * k + s + w ≤ i) := by omega
      have e2 : i % 64 - s = i - (64 * k + s) := by omega
      rw [if_pos h1, e2]
      by_cases a4 : 64 * k + s + w ≤ i <;> simp [a1, a2, a3, hj, a4, Bool.or_comm]
    · have a1 : i % 64 < s := by omega
      have a2 : ¬ s ≤ i % 64 := by omega
      rw [if_neg h1]
      simp [a1, a2, hj]
  have other : ∀ i, i / 64 ≠ k → bitAt (bits.set k ((bits[k] &&& ~~~(maskW w <<< s)) ||| (v <<< s))) i = bitAt bits i := by
    intro i hi
    rw [bitAt_set _ _ _ _ hk, if_neg hi]
  split
  · rename_i hlt
    have hk1 : k + 1 < (bits.set k ((bits[k] &&& ~~~(maskW w <<< s)) ||| (v <<< s))).length := by simp; omega
    simp only [rd_ok hk1, M.ok_bind, wr_ok hk1]
    refine ⟨_, rfl, by simp, ?_⟩
    intro i hi
    rw [bitAt_set _ _ _ _ hk1]
    by_cases h1 : i / 64 = k + 1
    · have hj : i % 64 < 64 := Nat.mod_lt _ (by omega)
      rw [if_pos h1, BitVec.getLsbD_or, BitVec.getLsbD_and, BitVec.getLsbD_not, shr_mask_getLsbD _ _ _ hw,
        BitVec.getLsbD_ushiftRight, if_pos (by omega)]
      have a1 : 64 - s + i % 64 < w := by omega
      have e : 64 - s + i % 64 = i - (64 * k + s) := by omega
      rw [e, decide_eq_true (show i - (64 * k + s) < w by omega)]
      simp [hj, show 64 * k + s ≤ i by omega]
    · rw [if_neg h1]
      by_cases h2 : i / 64 = k
      · rw [first i h2]
        have : ¬ 64 * k + s + w ≤ i := by omega
        simp [this]
      · rw [other i h2, if_neg (by omega)]
  · rename_i hlt
    refine ⟨_, rfl, by simp, ?_⟩
    intro i hi
    by_cases h2 : i / 64 = k
    · rw [first i h2]
      have : ¬ 64 * k + s + w ≤ i := by omega
      simp [this]
    · rw [other i h2, if_neg (by omega)]

/-- state of a builder after `k` values -/
structure CVB.Inv (b : CVB) (k : Nat) : Prop where
  w1 : 1 ≤ b.width
  w64 : b.width ≤ 64
  len : b.bits.length = wordsFor (b.size * b.width)
  pos : 64 * b.curBlock + b.curShift = k * b.width
  shift : b.curShift < 64

theorem CVB.pushBack_spec (b : CVB) (k : Nat) (v : W) (h : b.Inv k) (hk : k < b.size) :
    ∃ b', b.pushBack v = .ok b' ∧ b'.Inv (k + 1) ∧ b'.size = b.size ∧ b'.width = b.width ∧
      (∀ i, i < k * b.width → bitAt b'.bits i = bitAt b.bits i) ∧
      (∀ j, j < b.width → bitAt b'.bits (k * b.width + j) = v.getLsbD j) := by
  have hlen := h.len
  have hpos := h.pos
  have hsh := h.shift
  have hw1 := h.w1
  have hw64 := h.w64
  unfold wordsFor at hlen
  have hmul : (k + 1) * b.width ≤ b.size * b.width := Nat.mul_le_mul_right _ (by omega)
  have hmul2 : (k + 1) * b.width = k * b.width + b.width := by rw [Nat.add_mul, Nat.one_mul]
  obtain ⟨bits', f1, f2, f3⟩ := field_write b.bits b.curBlock b.curShift b.width v hsh hw1 hw64 (by omega)
  have hpw : b.pushWords v = .ok (if 64 - b.curShift < b.width
      then (bits', b.curBlock + 1, b.width - (64 - b.curShift)) else (bits', b.curBlock, b.curShift + b.width)) := by
    unfold CVB.pushWords
    have hk : b.curBlock < b.bits.length := by omega
    simp only [rd_ok hk, M.ok_bind, wr_ok hk] at f1 ⊢
    split at f1
    · rename_i hlt
      rw [if_pos hlt, if_pos hlt]
      have hk1 : b.curBlock + 1 < (b.bits.set b.curBlock ((b.bits[b.curBlock] &&& ~~~(maskW b.width <<< b.curShift)) |||
        (v <<< b.curShift))).length := by simp; omega
      simp only [rd_ok hk1, M.ok_bind, wr_ok hk1] at f1 ⊢
      cases f1; rfl
    · rename_i hlt
      rw [if_neg hlt, if_neg hlt]
      cases f1; rfl
  unfold CVB.pushBack
  rw [hpw]
  simp only [M.ok_bind]
  have bitsP : (∀ i, i < k * b.width → bitAt bits' i = bitAt b.bits i) ∧
      (∀ j, j < b.width → bitAt bits' (k * b.width + j) = v.getLsbD j) := by
    refine ⟨?_, ?_⟩
    · intro i hi
      rw [f3 i (by omega), if_neg (by omega)]
    · intro j hj
      rw [f3 _ (by omega), if_pos (by omega)]
      congr 1; omega
  by_cases hlt : 64 - b.curShift < b.width
  · rw [if_pos hlt]
    simp only
    split
    · rename_i h64
      exact ⟨_, rfl, ⟨hw1, hw64, by simp only [f2]; exact h.len, by simp only; omega, by simp only; omega⟩, rfl, rfl, bitsP⟩
    · rename_i h64
      exact ⟨_, rfl, ⟨hw1, hw64, by simp only [f2]; exact h.len, by simp only; omega, by simp only; omega⟩, rfl, rfl, bitsP⟩
  · rw [if_neg hlt]
    simp only
    split
    · rename_i h64
      exact ⟨_, rfl, ⟨hw1, hw64, by simp only [f2]; exact h.len, by simp only; omega, by simp only; omega⟩, rfl, rfl, bitsP⟩
    · rename_i h64
      exact ⟨_, rfl, ⟨hw1, hw64, by simp only [f2]; exact h.len, by simp only; omega, by simp only; omega⟩, rfl, rfl, bitsP⟩

theorem CVB.fill_spec (vs : List W) : ∀ (b : CVB) (k : Nat), b.Inv k → k + vs.length ≤ b.size →
    ∃ b', b.fill vs = .ok b' ∧ b'.Inv (k + vs.length) ∧ b'.size = b.size ∧ b'.width = b.width ∧
      (∀ i, i < k * b.width → bitAt b'.bits i = bitAt b.bits i) ∧
      (∀ i (hi : i < vs.length) j, j < b.width → bitAt b'.bits ((k + i) * b.width + j) = vs[i].getLsbD j) := by
  induction vs with
  | nil =>
      intro b k h _
      exact ⟨b, rfl, h, rfl, rfl, fun _ _ => rfl, by intro i hi; simp at hi⟩
  | cons v vs ih =>
      intro b k h hk
      simp only [List.length_cons] at hk
      obtain ⟨b1, a1, a2, a3, a4, a5, a6⟩ := b.pushBack_spec k v h (by omega)
      obtain ⟨b2, c1, c2, c3, c4, c5, c6⟩ := ih b1 (k + 1) a2 (by omega)
      refine ⟨b2, by simp only [CVB.fill, a1, M.ok_bind, c1], by simpa [Nat.add_assoc, Nat.add_comm] using c2,
        by omega, by omega, ?_, ?_⟩
      · intro i hi
        have : k * b.width ≤ (k + 1) * b1.width := by rw [a4]; exact Nat.mul_le_mul_right _ (by omega)
        rw [c5 i (by omega), a5 i hi]
      · intro i hi j hj
        cases i with
        | zero =>
            have e : (k + 1) * b1.width = k * b.width + b.width := by rw [a4, Nat.add_mul, Nat.one_mul]
            rw [Nat.add_zero, c5 _ (by omega), a6 j hj]; rfl
        | succ i =>
            have := c6 i (by simpa using hi) j (by omega)
            rw [a4] at this
            rw [show k + (i + 1) = k + 1 + i by omega, this]; rfl

/-- a built vector: field `i` holds the low bits of `vs[i]` -/
structure CV.Rep (c : CV) (vs : List W) (w : Nat) : Prop where
  w1 : 1 ≤ w
  w64 : w ≤ 64
  size : c.size = vs.length
  width : c.width = w
  mask : c.mask = maskW w
  len : c.bits.length = wordsFor (vs.length * w)
  field : ∀ i (hi : i < vs.length), valueAt c.bits (i * w) w = vs[i].toNat % 2 ^ w

theorem valueAt_of_getLsbD (ws : List W) (p w : Nat) (v : W) (h : ∀ j, j < w → bitAt ws (p + j) = v.getLsbD j) :
    valueAt ws p w = v.toNat % 2 ^ w := by
  apply valueAt_eq (Nat.mod_lt _ (Nat.two_pow_pos w))
  intro j hj
  rw [h j hj, Nat.testBit_mod_two_pow, BitVec.testBit_toNat]; simp [hj]

theorem CV.build_spec (vs : List W) (w : Nat) (after : W) (h1 : 1 ≤ w) (h64 : w ≤ 64) :
    ∃ c, CV.build vs w after = .ok c ∧ c.Rep vs w ∧ c.after = after := by
  unfold CV.build CVB.mk'
  rw [if_neg (by omega)]
  simp only [M.ok_bind]
  obtain ⟨b, b1, b2, b3, b4, b5, b6⟩ := CVB.fill_spec vs ⟨vs.length, w, 0, 0, List.replicate (wordsFor (vs.length * w)) 0⟩ 0
    ⟨h1, h64, by simp, by simp, by simp⟩ (by simp)
  rw [b1]
  simp only [M.ok_bind]
  refine ⟨_, rfl, ⟨h1, h64, b3, b4, by rw [b4], ?_, ?_⟩, rfl⟩
  · have := b2.len
    rw [b3, b4] at this
    exact this
  · intro i hi
    apply valueAt_of_getLsbD
    intro j hj
    have := b6 i hi j hj
    simpa using this

theorem CV.build_width0 (vs : List W) (w : Nat) (after : W) (h : w = 0 ∨ 64 < w) : CV.build vs w after = .error .thrown := by
  unfold CV.build CVB.mk'
  rw [if_pos h]; rfl

theorem lt_two_pow_ceilLog2 (x : Nat) (h : 1 ≤ x) : x ≤ 2 ^ ceilLog2 x := by
  unfold ceilLog2 msbNat
  split
  · have := Nat.lt_log2_self (n := x - 1); omega
  · simp; omega

theorem ceilLog2_le (x k : Nat) (h : x ≤ 2 ^ k) : ceilLog2 x ≤ k := by
  unfold ceilLog2 msbNat
  split
  · have : Nat.log2 (x - 1) < k := by rw [Nat.log2_lt (by omega)]; omega
    omega
  · omega

theorem ceilLog2_pos (x : Nat) (h : 2 ≤ x) : 1 ≤ ceilLog2 x := by
  unfold ceilLog2; rw [if_pos (by omega)]; omega

theorem two_word_read (bits : List W) (k s w : Nat) (hs : s < 64) (hw : w ≤ 64)
    (hb : 64 * k + s + w ≤ 64 * bits.length) (hk : k < bits.length) :
    (s + w ≤ 64 → ((bits[k] >>> s) &&& maskW w).toNat = valueAt bits (64 * k + s) w) ∧
    (¬ s + w ≤ 64 → ∃ h : k + 1 < bits.length,
      ((bits[k] >>> s) ||| ((bits[k + 1] <<< (64 - s)) &&& maskW w)).toNat = valueAt bits (64 * k + s) w) := by
  refine ⟨?_, ?_⟩
  · intro h
    apply toNat_eq_valueAt _ _ _ _ _ hw
    intro j hj
    rw [BitVec.getLsbD_and, maskW_getLsbD _ _ hw, BitVec.getLsbD_ushiftRight]
    by_cases hjl : j < w
    · rw [bitAt_word _ _ _ hk (by omega), Nat.add_assoc]; simp [hjl]
    · simp [hjl]
  · intro h
    have hk1 : k + 1 < bits.length := by omega
    refine ⟨hk1, ?_⟩
    apply toNat_eq_valueAt _ _ _ _ _ hw
    intro j hj
    rw [BitVec.getLsbD_or, BitVec.getLsbD_and, maskW_getLsbD _ _ hw, BitVec.getLsbD_ushiftRight,
      BitVec.getLsbD_shiftLeft]
    by_cases h2 : s + j < 64
    · have h3 : j < 64 - s := by omega
      have h4 : j < w := by omega
      rw [bitAt_word _ _ _ hk (by omega), Nat.add_assoc]; simp [h3, h4]
    · rw [getLsbD_ge _ (s + j) (by omega), bitAt_word _ _ _ hk1 (by omega)]
      have h3 : ¬ j < 64 - s := by omega
      have e : 64 * (k + 1) + (j - (64 - s)) = 64 * k + s + j := by omega
      rw [e]
      by_cases hjl : j < w <;> simp [hjl, h3, hj]

theorem CV.Rep.bound {c : CV} {vs : List W} {w : Nat} (h : c.Rep vs w) {i : Nat} (hi : i < vs.length) :
    i * w + w ≤ 64 * c.bits.length := by
  have hl := h.len
  unfold wordsFor at hl
  have : (i + 1) * w ≤ vs.length * w := Nat.mul_le_mul_right _ (by omega)
  rw [Nat.add_mul, Nat.one_mul] at this
  omega

/-- `operator[]` -/
theorem CV.get_spec {c : CV} {vs : List W} {w : Nat} (h : c.Rep vs w) (i : Nat) (hi : i < vs.length) :
    ∃ x, c.get i = .ok x ∧ x.toNat = vs[i].toNat % 2 ^ w := by
  have hb := h.bound hi
  have hf := h.field i hi
  have hw1 := h.w1
  have hw64 := h.w64
  have hk : i * w / 64 < c.bits.length := by omega
  obtain ⟨r1, r2⟩ := two_word_read c.bits (i * w / 64) (i * w % 64) w (by omega) h.w64 (by omega) hk
  rw [show 64 * (i * w / 64) + i * w % 64 = i * w by omega, hf] at r1 r2
  unfold CV.get
  rw [h.width, h.mask]
  simp only [rd_ok hk, M.ok_bind]
  split
  · rename_i hc
    exact ⟨_, rfl, r1 hc⟩
  · rename_i hc
    obtain ⟨hk1, e⟩ := r2 hc
    simp only [rd_ok hk1, M.ok_bind]
    exact ⟨_, rfl, e⟩

/-- `access`, for widths up to 57 -/
theorem CV.access_spec {c : CV} {vs : List W} {w : Nat} (h : c.Rep vs w) (hw : w ≤ 57) (i : Nat) (hi : i < vs.length) :
    ∃ x, c.access i = .ok x ∧ x.toNat = vs[i].toNat % 2 ^ w := by
  have hb := h.bound hi
  have hf := h.field i hi
  have hw1 := h.w1
  have hk : i * w / 64 < c.bits.length := by omega
  have hacc : c.access i = (do
      let x ← BV.getWord56 ⟨c.bits, 0, c.after⟩ (i * w)
      .ok (x &&& maskW w)) := by
    unfold CV.access BV.getWord56 BV.memWord
    rw [h.width, h.mask]
    have hw0 : i * w / 8 / 8 < (c.bits ++ [c.after]).length := by simp; omega
    simp only [rd_ok hw0, M.ok_bind]
    split
    · rfl
    · rename_i hoff
      have hw1 : i * w / 8 / 8 + 1 < (c.bits ++ [c.after]).length := by simp; omega
      simp only [rd_ok hw1, M.ok_bind]
  obtain ⟨x, x1, x2⟩ := BV.getWord56_spec ⟨c.bits, 0, c.after⟩ (i * w) hk
  rw [hacc, x1]
  simp only [M.ok_bind]
  refine ⟨_, rfl, ?_⟩
  rw [← hf]
  apply toNat_eq_valueAt _ _ _ _ _ (by omega)
  intro j hj
  rw [BitVec.getLsbD_and, maskW_getLsbD _ _ (by omega)]
  by_cases hjl : j < w
  · rw [x2 j (by omega) (by simp only; omega)]; simp [hjl]
  · simp [hjl]

/-- enumeration: the state is at the beginning of field `i` -/
structure CVE.Inv (c : CV) (e : CVE) (i : Nat) : Prop where
  pos : 64 * e.curBlock + e.curShift = i * c.width
  shift : e.curShift < 64

theorem CVE.mk'_inv (c : CV) (i : Nat) : (CVE.mk' c i).Inv c i :=
  ⟨by simp only [CVE.mk']; omega, by simp only [CVE.mk']; omega⟩

theorem CVE.deref_spec {c : CV} {vs : List W} {w : Nat} (h : c.Rep vs w) (e : CVE) (i : Nat) (he : e.Inv c i)
    (hi : i < vs.length) :
    ∃ x e', e.deref c = .ok (x, e') ∧ x.toNat = vs[i].toNat % 2 ^ w ∧ e'.Inv c (i + 1) ∧ e'.i = e.i := by
  have hb := h.bound hi
  have hf := h.field i hi
  have hw1 := h.w1
  have hw64 := h.w64
  have hp := he.pos
  rw [h.width] at hp
  have hs := he.shift
  have hk : e.curBlock < c.bits.length := by omega
  obtain ⟨r1, r2⟩ := two_word_read c.bits e.curBlock e.curShift w hs h.w64 (by omega) hk
  rw [hp, hf] at r1 r2
  have hmul : (i + 1) * c.width = i * w + w := by rw [h.width, Nat.add_mul, Nat.one_mul]
  unfold CVE.deref CVE.readWords
  simp only [rd_ok hk, M.ok_bind]
  rw [h.width, h.mask]
  by_cases hc : e.curShift + w ≤ 64
  · rw [if_pos hc]
    simp only [M.ok_bind]
    split
    · exact ⟨_, _, rfl, r1 hc, ⟨by simp only; omega, by simp only; omega⟩, rfl⟩
    · exact ⟨_, _, rfl, r1 hc, ⟨by simp only; omega, by simp only; omega⟩, rfl⟩
  · rw [if_neg hc]
    obtain ⟨hk1, e2⟩ := r2 hc
    simp only [rd_ok hk1, M.ok_bind]
    rw [if_neg (by omega)]
    exact ⟨_, _, rfl, e2, ⟨by simp only; omega, by simp only; omega⟩, rfl⟩

theorem CVE.scan_spec {c : CV} {vs : List W} {w : Nat} (h : c.Rep vs w) :
    ∀ (n : Nat) (e : CVE) (i : Nat), e.Inv c i → i + n ≤ vs.length →
      ∃ xs, CVE.scan c n e = .ok xs ∧ xs.map BitVec.toNat = ((vs.drop i).take n).map (fun v => v.toNat % 2 ^ w) := by
  intro n
  induction n with
  | zero => intro e i _ _; exact ⟨[], rfl, rfl⟩
  | succ n ih =>
      intro e i he hi
      obtain ⟨x, e', d1, d2, d3, d4⟩ := CVE.deref_spec h e i he (by omega)
      obtain ⟨xs, s1, s2⟩ := ih e'.inc (i + 1) ⟨d3.pos, d3.shift⟩ (by omega)
      refine ⟨x :: xs, by simp only [CVE.scan, d1, M.ok_bind, s1], ?_⟩
      rw [List.drop_eq_getElem_cons (show i < vs.length by omega), List.take_succ_cons]
      simp only [List.map_cons, s2, d2]

end AC
