import Verif.Proofs.BitRead
import Verif.Model.IntegerCodes
/-! # bits_iterator and the integer codes -/
namespace AC

/-- State of a `bits_iterator`: the buffer holds the next `avail` bits. -/
structure BI.Inv (v : BV) (b : BI) : Prop where
  avail : b.avail ≤ 64
  buf : ∀ j, j < 64 → b.buf.getLsbD j = (decide (j < b.avail) && bitAt v.bits (b.pos + j))

theorem BI.mk'_inv (v : BV) (pos : Nat) : (BI.mk' pos).Inv v := ⟨by simp [BI.mk'], by intro j _; simp [BI.mk']⟩

theorem BI.fillBuf_spec (v : BV) (b : BI) (h : b.pos < 64 * v.bits.length) :
    ∃ b', b.fillBuf v = .ok b' ∧ b'.pos = b.pos ∧ b'.avail = 64 ∧ b'.Inv v := by
  obtain ⟨w, hw, hb⟩ := v.getWord64_spec b.pos h
  unfold BI.fillBuf
  rw [hw]
  simp only [M.ok_bind]
  refine ⟨_, rfl, rfl, rfl, ⟨Nat.le_refl _, ?_⟩⟩
  intro j hj
  simp only
  rw [hb j hj]; simp [hj]

theorem BI.refill_spec (v : BV) (b : BI) (len : Nat) (hl : len ≤ 64) (hi : b.Inv v)
    (h : b.pos + len ≤ 64 * v.bits.length) :
    ∃ b', b.refill v len = .ok b' ∧ b'.pos = b.pos ∧ len ≤ b'.avail ∧ b'.Inv v := by
  unfold BI.refill
  split
  · obtain ⟨b', h1, h2, h3, h4⟩ := BI.fillBuf_spec v b (by omega)
    exact ⟨b', h1, h2, by omega, h4⟩
  · exact ⟨b, rfl, rfl, by omega, hi⟩

theorem one_shl_sub (len : Nat) (h : len < 64) : ((1 : W) <<< len) - 1 = maskW len := by
  unfold maskW; rw [if_neg (by omega)]

/-- `get_bits(len)` for `len < 64` -/
theorem BI.getBits_spec (v : BV) (b : BI) (len : Nat) (hl : len < 64) (hi : b.Inv v)
    (h : b.pos + len ≤ 64 * v.bits.length) :
    ∃ w b', b.getBits v len = .ok (w, b') ∧ b'.pos = b.pos + len ∧ b'.Inv v ∧
      ∀ j, w.getLsbD j = (decide (j < len) && bitAt v.bits (b.pos + j)) := by
  obtain ⟨b', h1, h2, h3, h4⟩ := BI.refill_spec v b len (by omega) hi h
  unfold BI.getBits
  rw [h1]
  simp only [M.ok_bind]
  have hav := h4.avail
  rw [if_pos (by omega)]
  refine ⟨_, _, rfl, ?_, ⟨?_, ?_⟩, ?_⟩
  · simp only; omega
  · simp only; omega
  · intro j hj
    simp only
    rw [BitVec.getLsbD_ushiftRight]
    by_cases hj2 : len + j < 64
    · rw [h4.buf _ hj2, Nat.add_assoc]
      congr 1
      rw [decide_eq_decide]; omega
    · rw [getLsbD_ge _ _ (by omega)]
      have : ¬ j < b'.avail - len := by omega
      simp [this]
  · intro j
    rw [one_shl_sub _ hl, BitVec.getLsbD_and, maskW_getLsbD _ _ (by omega)]
    by_cases hj : j < len
    · have : j < b'.avail := by omega
      rw [h4.buf j (by omega), h2]; simp [hj, this]
    · simp [hj]

theorem BI.getBits64_spec (v : BV) (b : BI) (hi : b.Inv v) (h : b.pos + 64 ≤ 64 * v.bits.length) :
    ∃ w b', b.getBits v 64 = .ok (w, b') ∧ b'.pos = b.pos + 64 ∧ w.toNat = valueAt v.bits b.pos 64 := by
  obtain ⟨b', h1, h2, h3, h4⟩ := BI.refill_spec v b 64 (by omega) hi h
  unfold BI.getBits
  rw [h1]
  simp only [M.ok_bind]
  rw [if_neg (by omega)]
  refine ⟨_, _, rfl, ?_, ?_⟩
  · simp only; omega
  · apply toNat_eq_valueAt _ _ _ _ _ (by omega)
    intro j hj
    have : j < b'.avail := by omega
    rw [h4.buf j hj, h2]; simp [hj, this]

theorem BI.skipLoop_spec (v : BV) (q : Nat) (hq : q < 64 * v.bits.length) (hfq : bitAt v.bits q = true) :
    ∀ (fuel zs : Nat) (b : BI), b.Inv v → b.pos ≤ q → (∀ i, b.pos ≤ i → i < q → bitAt v.bits i = false) →
      (q - b.pos) / 64 + (if b.avail = 64 then 1 else 2) < fuel + 1 →
      ∃ zs' b', BI.skipLoop v fuel zs b = .ok (zs', b') ∧ b'.Inv v ∧ b'.buf ≠ 0 ∧ b'.pos ≤ q ∧
        zs' + b.pos = zs + b'.pos ∧ (∀ i, b'.pos ≤ i → i < q → bitAt v.bits i = false) := by
  intro fuel
  induction fuel with
  | zero => intro zs b h1 h2 h3 h4; split at h4 <;> omega
  | succ fuel ih =>
      intro zs b h1 h2 h3 h4
      unfold BI.skipLoop
      split
      · rename_i h0
        have hnb : ∀ j, j < b.avail → bitAt v.bits (b.pos + j) = false := by
          intro j hj
          have := h1.buf j (by have := h1.avail; omega)
          rw [h0] at this
          simpa [hj] using this.symm
        have hpa : b.pos + b.avail ≤ q := by
          apply Nat.le_of_not_lt
          intro hlt
          have := hnb (q - b.pos) (by omega)
          rw [show b.pos + (q - b.pos) = q by omega, hfq] at this
          cases this
        obtain ⟨b', g1, g2, g3, g4⟩ := BI.fillBuf_spec v { b with pos := b.pos + b.avail, avail := 0 } (by simp only; omega)
        simp only at g2
        simp only
        rw [g1]
        simp only [M.ok_bind]
        have hav := h1.avail
        obtain ⟨zs', b'', k1, k2, k3, k4, k5, k6⟩ := ih (zs + b.avail) b' g4 (by omega) (by
          intro i hi1 hi2
          exact h3 i (by omega) hi2) (by
          rw [if_pos g3]
          split at h4
          · rename_i h64
            rw [h64] at hpa g2
            omega
          · have : (q - b'.pos) / 64 ≤ (q - b.pos) / 64 := Nat.div_le_div_right (by omega)
            omega)
        exact ⟨zs', b'', k1, k2, k3, k4, by omega, k6⟩
      · rename_i h0
        exact ⟨zs, b, rfl, h1, h0, h2, by omega, h3⟩

/-- `skip_zeros()` moves after the next one and returns the number of zeros skipped. -/
theorem BI.skipZeros_spec (v : BV) (b : BI) (q : Nat) (hi : b.Inv v) (hq : q < 64 * v.bits.length)
    (hfq : bitAt v.bits q = true) (hpq : b.pos ≤ q) (hmin : ∀ i, b.pos ≤ i → i < q → bitAt v.bits i = false) :
    ∃ b', b.skipZeros v = .ok (q - b.pos, b') ∧ b'.pos = q + 1 ∧ b'.Inv v := by
  obtain ⟨zs, b', h1, h2, h3, h4, h5, h6⟩ := BI.skipLoop_spec v q hq hfq (v.bits.length + 2) 0 b hi hpq hmin (by
    split <;> omega)
  unfold BI.skipZeros
  rw [h1]
  simp only [M.ok_bind]
  cases hl : b'.buf.lsb with
  | none =>
      exfalso; apply h3
      apply ext_getLsbD
      intro j _
      rw [W.lsb_none _ hl]; simp
  | some l =>
      obtain ⟨a1, a2, a3⟩ := W.lsb_some _ _ hl
      rw [h2.buf l a1] at a2
      simp only [Bool.and_eq_true, decide_eq_true_eq] at a2
      have hav := h2.avail
      have hql : b'.pos + l = q := by
        rcases Nat.lt_trichotomy (b'.pos + l) q with h | h | h
        · rw [h6 _ (by omega) h] at a2; simp at a2
        · exact h
        · exfalso
          have := a3 (q - b'.pos) (by omega)
          rw [h2.buf _ (by omega), show b'.pos + (q - b'.pos) = q by omega, hfq] at this
          simp at this
          omega
      simp only [Option.getD_some]
      have ez : zs + l = q - b.pos := by omega
      refine ⟨_, by rw [ez], ?_, ⟨?_, ?_⟩⟩
      · simp only; omega
      · simp only; omega
      · intro j hj
        simp only
        rw [BitVec.getLsbD_ushiftRight, BitVec.getLsbD_ushiftRight]
        by_cases hj2 : l + (1 + j) < 64
        · rw [h2.buf _ hj2]
          rw [show b'.pos + (l + (1 + j)) = b'.pos + (l + 1) + j by omega]
          congr 1
          rw [decide_eq_decide]; omega
        · rw [getLsbD_ge _ _ (by omega)]
          have : ¬ j < (b'.avail + (2 ^ 64 - (l + 1))) % 2 ^ 64 := by omega
          exact (by rw [decide_eq_false this]; rfl)

/-! ## codes -/

/-- the bits of `ws` from `p` on start with the `len` bits of `x` -/
def HasBits (ws : List W) (p : Nat) (x : W) (len : Nat) : Prop := ∀ j, j < len → bitAt ws (p + j) = x.getLsbD j

theorem appendBits_hasBits (v : BVB) (x : W) (len : Nat) (h : v.WF) (hl : len ≤ 64) (hx : x.toNat < 2 ^ len) :
    HasBits (v.appendBits x len).bits v.size x len := by
  intro j hj
  rw [BVB.appendBits_bitAt v x len h hl hx, if_pos (by omega)]
  congr 1; omega

theorem log2_bits (x : W) (h : x ≠ 0) : msbNat x.toNat < 64 ∧ x.getLsbD (msbNat x.toNat) = true ∧
    ∀ j, msbNat x.toNat < j → x.getLsbD j = false := by
  have hx : x.toNat ≠ 0 := by
    intro e; apply h; apply BitVec.eq_of_toNat_eq; simpa using e
  have hlt : x.toNat < 2 ^ 64 := x.isLt
  unfold msbNat
  have h64 : Nat.log2 x.toNat < 64 := (Nat.log2_lt hx).mpr hlt
  have hself := Nat.log2_self_le hx
  have hlt2 := Nat.lt_log2_self (n := x.toNat)
  refine ⟨h64, ?_, ?_⟩
  · rw [← BitVec.testBit_toNat]
    exact Nat.testBit_log2 hx
  · intro j hj
    exact getLsbD_of_lt x _ j hlt2 hj

theorem hb_getLsbD (l j : Nat) (hl : l < 64) : ((1 : W) <<< l).getLsbD j = decide (j = l) := by
  by_cases hj : j < 64
  · have := one_shl_getLsbD true l j hj
    simpa using this
  · rw [getLsbD_ge _ _ (by omega)]
    simp; omega

theorem code_low (x : W) (h : x ≠ 0) (j : Nat) :
    (x ^^^ ((1 : W) <<< msbNat x.toNat)).getLsbD j = (decide (j < msbNat x.toNat) && x.getLsbD j) := by
  obtain ⟨h1, h2, h3⟩ := log2_bits x h
  rw [BitVec.getLsbD_xor, hb_getLsbD _ _ h1]
  rcases Nat.lt_trichotomy j (msbNat x.toNat) with h | h | h
  · have : ¬ j = msbNat x.toNat := by omega
    simp [this, h]
  · have : ¬ j < msbNat x.toNat := by omega
    rw [h]; simp [h2]
  · have a : ¬ j < msbNat x.toNat := by omega
    have b : ¬ j = msbNat x.toNat := by omega
    rw [h3 j h]; simp [a, b]

theorem code_low_lt (x : W) (h : x ≠ 0) : (x ^^^ ((1 : W) <<< msbNat x.toNat)).toNat < 2 ^ msbNat x.toNat := by
  apply lt_of_getLsbD
  intro j hj
  rw [code_low x h]
  have : ¬ j < msbNat x.toNat := by omega
  simp [this]

theorem hb_lt (l : Nat) (hl : l < 64) : ((1 : W) <<< l).toNat < 2 ^ (l + 1) := by
  apply lt_of_getLsbD
  intro j hj
  rw [hb_getLsbD _ _ hl]; simp; omega

/-- the gamma code of `n` is at `p` -/
def GammaAt (ws : List W) (p : Nat) (n : W) : Prop :=
  let nn := n + 1
  nn ≠ 0 ∧ (∀ j, j < msbNat nn.toNat → bitAt ws (p + j) = false) ∧ bitAt ws (p + msbNat nn.toNat) = true ∧
    HasBits ws (p + msbNat nn.toNat + 1) nn (msbNat nn.toNat)

def gammaLen (n : W) : Nat := 2 * msbNat (n + 1).toNat + 1

theorem writeGamma_spec (v : BVB) (n : W) (h : v.WF) (hn : n + 1 ≠ 0) :
    ∃ r, writeGamma v n = .ok r ∧ r.WF ∧ r.size = v.size + gammaLen n ∧
      (∀ i, i < v.size → bitAt r.bits i = bitAt v.bits i) ∧ GammaAt r.bits v.size n := by
  obtain ⟨h1, h2, h3⟩ := log2_bits _ hn
  unfold writeGamma gammaLen
  simp only [hn, if_false]
  unfold GammaAt
  simp only
  generalize hl : msbNat (n + 1).toNat = l at *
  have hlt1 := hb_lt l h1
  have hlt2 := code_low_lt _ hn
  rw [hl] at hlt2
  have w1 := BVB.appendBits_wf v ((1 : W) <<< l) (l + 1) h (by omega) hlt1
  have w2 := BVB.appendBits_wf _ ((n + 1) ^^^ ((1 : W) <<< l)) l w1 (by omega) hlt2
  have s1 := BVB.appendBits_size v ((1 : W) <<< l) (l + 1)
  have s2 := BVB.appendBits_size (v.appendBits ((1 : W) <<< l) (l + 1)) ((n + 1) ^^^ ((1 : W) <<< l)) l
  have b1 := BVB.appendBits_bitAt v ((1 : W) <<< l) (l + 1) h (by omega) hlt1
  have b2 := BVB.appendBits_bitAt _ ((n + 1) ^^^ ((1 : W) <<< l)) l w1 (by omega) hlt2
  refine ⟨_, rfl, w2, by omega, ?_, hn, ?_, ?_, ?_⟩
  · intro i hi
    rw [b2, if_neg (by omega), b1, if_neg (by omega)]
  · intro j hj
    rw [b2, if_neg (by omega), b1, if_pos (by omega), hb_getLsbD _ _ h1]
    simp; omega
  · rw [b2, if_neg (by omega), b1, if_pos (by omega), hb_getLsbD _ _ h1]
    simp
  · intro j hj
    have := code_low (n + 1) hn j
    rw [hl] at this
    rw [b2, if_pos (by omega), s1, show v.size + l + 1 + j - (v.size + (l + 1)) = j by omega, this]
    simp [hj]

theorem hasBits_rebuild (x w : W) (h : x ≠ 0) (hw : ∀ j, w.getLsbD j = (decide (j < msbNat x.toNat) && x.getLsbD j)) :
    w ||| ((1 : W) <<< msbNat x.toNat) = x := by
  obtain ⟨h1, h2, h3⟩ := log2_bits x h
  apply ext_getLsbD
  intro j hj
  rw [BitVec.getLsbD_or, hb_getLsbD _ _ h1, hw]
  rcases Nat.lt_trichotomy j (msbNat x.toNat) with h | h | h
  · have : ¬ j = msbNat x.toNat := by omega
    simp [this, h]
  · rw [h]; simp [h2]
  · have a : ¬ j < msbNat x.toNat := by omega
    have b : ¬ j = msbNat x.toNat := by omega
    rw [h3 j h]; simp [a, b]

theorem readGamma_spec (v : BV) (b : BI) (n : W) (hi : b.Inv v) (hg : GammaAt v.bits b.pos n)
    (hend : b.pos + gammaLen n ≤ 64 * v.bits.length) :
    ∃ b', readGamma v b = .ok (n, b') ∧ b'.pos = b.pos + gammaLen n ∧ b'.Inv v := by
  unfold GammaAt at hg
  unfold gammaLen at hend ⊢
  simp only at hg
  obtain ⟨g0, g1, g2, g3⟩ := hg
  obtain ⟨h1, h2, h3⟩ := log2_bits _ g0
  obtain ⟨b1, s1, s2, s3⟩ := BI.skipZeros_spec v b (b.pos + msbNat (n + 1).toNat) hi (by omega) g2 (by omega) (by
    intro i i1 i2
    have := g1 (i - b.pos) (by omega)
    rwa [show b.pos + (i - b.pos) = i by omega] at this)
  have el : b.pos + msbNat (n + 1).toNat - b.pos = msbNat (n + 1).toNat := by omega
  rw [el] at s1
  obtain ⟨w, b2, t1, t2, t3, t4⟩ := BI.getBits_spec v b1 (msbNat (n + 1).toNat) h1 s3 (by omega)
  unfold readGamma
  rw [s1]
  simp only [M.ok_bind]
  rw [t1]
  simp only [M.ok_bind]
  refine ⟨b2, ?_, by omega, t3⟩
  rw [hasBits_rebuild (n + 1) w g0 (by
    intro j
    rw [t4]
    by_cases hj : j < msbNat (n + 1).toNat
    · rw [s2, g3 j hj]
    · rw [decide_eq_false hj, Bool.false_and, Bool.false_and])]
  rw [BitVec.add_sub_cancel]

/-- the delta code of `n` is at `p` -/
def DeltaAt (ws : List W) (p : Nat) (n : W) : Prop :=
  let nn := n + 1
  let l : W := BitVec.ofNat 64 (msbNat nn.toNat)
  nn ≠ 0 ∧ GammaAt ws p l ∧ HasBits ws (p + gammaLen l) nn (msbNat nn.toNat)

def deltaLen (n : W) : Nat := gammaLen (BitVec.ofNat 64 (msbNat (n + 1).toNat)) + msbNat (n + 1).toNat

theorem ofNat_small_toNat (l : Nat) (h : l < 64) : (BitVec.ofNat 64 l).toNat = l := by
  rw [BitVec.toNat_ofNat]; omega

theorem ofNat_succ_ne (l : Nat) (h : l < 64) : (BitVec.ofNat 64 l : W) + 1 ≠ 0 := by
  intro e
  have := congrArg BitVec.toNat e
  rw [BitVec.toNat_add, ofNat_small_toNat l h] at this
  have e1 : (1 : W).toNat = 1 := rfl
  have e0 : (0 : W).toNat = 0 := rfl
  rw [e1, e0] at this
  omega

theorem writeDelta_spec (v : BVB) (n : W) (h : v.WF) (hn : n + 1 ≠ 0) :
    ∃ r, writeDelta v n = .ok r ∧ r.WF ∧ r.size = v.size + deltaLen n ∧
      (∀ i, i < v.size → bitAt r.bits i = bitAt v.bits i) ∧ DeltaAt r.bits v.size n := by
  obtain ⟨h1, h2, h3⟩ := log2_bits _ hn
  unfold writeDelta deltaLen
  simp only [hn, if_false]
  unfold DeltaAt
  simp only
  have hlt2 := code_low_lt _ hn
  obtain ⟨g, g1, g2, g3, g4, g5⟩ := writeGamma_spec v (BitVec.ofNat 64 (msbNat (n + 1).toNat)) h (ofNat_succ_ne _ h1)
  rw [g1]
  simp only [M.ok_bind]
  have w2 := BVB.appendBits_wf g _ _ g2 (by omega) hlt2
  have s2 := BVB.appendBits_size g ((n + 1) ^^^ ((1 : W) <<< msbNat (n + 1).toNat)) (msbNat (n + 1).toNat)
  have b2 := BVB.appendBits_bitAt g _ _ g2 (by omega) hlt2
  refine ⟨_, rfl, w2, by omega, ?_, hn, ?_, ?_⟩
  · intro i hi
    rw [b2, if_neg (by omega), g4 i hi]
  · unfold GammaAt at g5 ⊢
    simp only at g5 ⊢
    obtain ⟨q0, q1, q2, q3⟩ := g5
    unfold gammaLen at g3
    refine ⟨q0, ?_, ?_, ?_⟩
    · intro j hj
      rw [b2, if_neg (by omega), q1 j hj]
    · rw [b2, if_neg (by omega), q2]
    · intro j hj
      rw [b2, if_neg (by omega), q3 j hj]
  · intro j hj
    have := code_low (n + 1) hn j
    rw [b2, if_pos (by omega), g3, show v.size + gammaLen (BitVec.ofNat 64 (msbNat (n + 1).toNat)) + j -
      (v.size + gammaLen (BitVec.ofNat 64 (msbNat (n + 1).toNat))) = j by omega, this]
    rw [decide_eq_true hj, Bool.true_and]

theorem readDelta_spec (v : BV) (b : BI) (n : W) (hi : b.Inv v) (hg : DeltaAt v.bits b.pos n)
    (hend : b.pos + deltaLen n ≤ 64 * v.bits.length) :
    ∃ b', readDelta v b = .ok (n, b') ∧ b'.pos = b.pos + deltaLen n ∧ b'.Inv v := by
  unfold DeltaAt at hg
  unfold deltaLen at hend ⊢
  simp only at hg
  obtain ⟨g0, g1, g3⟩ := hg
  obtain ⟨h1, h2, h3⟩ := log2_bits _ g0
  obtain ⟨b1, s1, s2, s3⟩ := readGamma_spec v b _ hi g1 (by omega)
  obtain ⟨w, b2, t1, t2, t3, t4⟩ := BI.getBits_spec v b1 (msbNat (n + 1).toNat) h1 s3 (by omega)
  unfold readDelta
  rw [s1]
  simp only [M.ok_bind, ofNat_small_toNat _ h1]
  rw [t1]
  simp only [M.ok_bind]
  refine ⟨b2, ?_, by omega, t3⟩
  rw [hasBits_rebuild (n + 1) w g0 (by
    intro j
    rw [t4]
    by_cases hj : j < msbNat (n + 1).toNat
    · rw [s2, g3 j hj]
    · rw [decide_eq_false hj, Bool.false_and, Bool.false_and])]
  rw [BitVec.add_sub_cancel]

end AC
