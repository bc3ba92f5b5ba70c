import Verif.Proofs.BitCount
/-! # Reading bit vectors -/
namespace AC

theorem BV.get_spec (v : BV) (i : Nat) (h : i < 64 * v.bits.length) : v.get i = .ok (bitAt v.bits i) := by
  have hw : i / 64 < v.bits.length := by omega
  have hj : i % 64 < 64 := Nat.mod_lt _ (by omega)
  unfold BV.get
  simp only [rd_ok hw, M.ok_bind]
  have e : (v.bits[i / 64] >>> (i % 64) &&& 1 = 1) ↔ bitAt v.bits i = true := by
    have hb := bitAt_word v.bits (i / 64) (i % 64) hw hj
    have e2 : 64 * (i / 64) + i % 64 = i := by omega
    rw [e2] at hb
    rw [← hb]
    constructor
    · intro h
      have := congrArg (fun w => BitVec.getLsbD w 0) h
      simpa [BitVec.getLsbD_and, BitVec.getLsbD_ushiftRight] using this
    · intro h
      apply ext_getLsbD
      intro j hj'
      rw [BitVec.getLsbD_and, BitVec.getLsbD_ushiftRight]
      cases j with
      | zero => simp [h]
      | succ j => simp [BitVec.getLsbD_one]
  congr 1
  cases hb : bitAt v.bits i
  · rw [hb] at e; exact decide_eq_false (by rw [e]; simp)
  · exact decide_eq_true (e.mpr hb)

/-- the bits of the combination of two words -/
theorem win_getLsbD (a b : W) (s j : Nat) (hs : s < 64) (hj : j < 64) :
    ((a >>> s) ||| (b <<< (64 - s))).getLsbD j = if s + j < 64 then a.getLsbD (s + j) else b.getLsbD (s + j - 64) := by
  rw [BitVec.getLsbD_or, BitVec.getLsbD_ushiftRight, BitVec.getLsbD_shiftLeft]
  by_cases h : s + j < 64
  · have : j < 64 - s := by omega
    simp [h, this]
  · have h2 : ¬ j < 64 - s := by omega
    rw [getLsbD_ge a _ (by omega), if_neg h]
    have e : j - (64 - s) = s + j - 64 := by omega
    simp [h2, hj, e]

theorem BV.getBits_spec (v : BV) (pos len : Nat) (hl : len ≤ 64) (h : pos + len ≤ 64 * v.bits.length) :
    ∃ w, v.getBits pos len = .ok w ∧ w.toNat = valueAt v.bits pos len := by
  unfold BV.getBits
  by_cases h0 : len = 0
  · subst h0
    exact ⟨0, rfl, rfl⟩
  · rw [if_neg h0]
    have hw : pos / 64 < v.bits.length := by omega
    simp only
    by_cases hs : pos % 64 + len ≤ 64
    · rw [if_pos hs]
      simp only [rd_ok hw, M.ok_bind]
      refine ⟨_, rfl, ?_⟩
      apply toNat_eq_valueAt _ _ _ _ _ hl
      intro j hj
      rw [BitVec.getLsbD_and, maskW_getLsbD _ _ hl, BitVec.getLsbD_ushiftRight]
      by_cases hjl : j < len
      · rw [bitAt_word _ _ _ hw (by omega)]
        have e : 64 * (pos / 64) + (pos % 64 + j) = pos + j := by omega
        rw [e]; simp [hjl]
      · simp [hjl]
    · rw [if_neg hs]
      have hw1 : pos / 64 + 1 < v.bits.length := by omega
      simp only [rd_ok hw, rd_ok hw1, M.ok_bind]
      refine ⟨_, rfl, ?_⟩
      apply toNat_eq_valueAt _ _ _ _ _ hl
      intro j hj
      rw [BitVec.getLsbD_or, BitVec.getLsbD_and, maskW_getLsbD _ _ hl, BitVec.getLsbD_ushiftRight,
        BitVec.getLsbD_shiftLeft]
      by_cases h2 : pos % 64 + j < 64
      · have h3 : j < 64 - pos % 64 := by omega
        have h4 : j < len := by omega
        rw [bitAt_word _ _ _ hw (by omega)]
        have e : 64 * (pos / 64) + (pos % 64 + j) = pos + j := by omega
        rw [e]; simp [h3, h4]
      · rw [getLsbD_ge _ (pos % 64 + j) (by omega), bitAt_word _ _ _ hw1 (by omega)]
        have h3 : ¬ j < 64 - pos % 64 := by omega
        have e : 64 * (pos / 64 + 1) + (j - (64 - pos % 64)) = pos + j := by omega
        rw [e]
        by_cases hjl : j < len <;> simp [hjl, h3, hj]

theorem BV.getWord64_spec (v : BV) (pos : Nat) (h : pos < 64 * v.bits.length) :
    ∃ w, v.getWord64 pos = .ok w ∧ ∀ j, j < 64 → w.getLsbD j = bitAt v.bits (pos + j) := by
  have hw : pos / 64 < v.bits.length := by omega
  unfold BV.getWord64
  simp only [rd_ok hw, M.ok_bind]
  split
  · rename_i hc
    simp only [rd_ok hc.2, M.ok_bind]
    refine ⟨_, rfl, ?_⟩
    intro j hj
    rw [win_getLsbD _ _ _ _ (Nat.mod_lt _ (by omega)) hj]
    split
    · rw [bitAt_word _ _ _ hw (by omega)]
      congr 1; omega
    · rw [bitAt_word _ _ _ hc.2 (by omega)]
      congr 1; omega
  · rename_i hc
    refine ⟨_, rfl, ?_⟩
    intro j hj
    rw [BitVec.getLsbD_ushiftRight]
    by_cases h2 : pos % 64 + j < 64
    · rw [bitAt_word _ _ _ hw (by omega)]
      congr 1; omega
    · rw [getLsbD_ge _ _ (by omega), bitAt_of_length_le]
      omega

theorem BV.getWord56_spec (v : BV) (pos : Nat) (h : pos / 64 < v.bits.length) :
    ∃ w, v.getWord56 pos = .ok w ∧
      ∀ j, pos % 8 + j < 64 → pos + j < 64 * v.bits.length → w.getLsbD j = bitAt v.bits (pos + j) := by
  have hb : ∀ i, i < 64 * v.bits.length → bitAt (v.bits ++ [v.after]) i = bitAt v.bits i := by
    intro i hi
    rw [bitAt_append, if_neg (by omega)]
  unfold BV.getWord56 BV.memWord
  have e0 : pos / 8 / 8 = pos / 64 := by omega
  have hw : pos / 8 / 8 < (v.bits ++ [v.after]).length := by simp; omega
  simp only [rd_ok hw, M.ok_bind]
  split
  · rename_i hc
    refine ⟨_, rfl, ?_⟩
    intro j hj hl
    rw [BitVec.getLsbD_ushiftRight, bitAt_word _ _ _ hw (by omega), ← hb _ hl]
    congr 1; omega
  · rename_i hc
    have hw1 : pos / 8 / 8 + 1 < (v.bits ++ [v.after]).length := by simp; omega
    simp only [rd_ok hw1, M.ok_bind]
    refine ⟨_, rfl, ?_⟩
    intro j hj hl
    rw [BitVec.getLsbD_ushiftRight, win_getLsbD _ _ _ _ (by omega) hj, ← hb _ hl]
    split
    · rw [bitAt_word _ _ _ hw (by omega)]
      congr 1; omega
    · rw [bitAt_word _ _ _ hw1 (by omega)]
      congr 1; omega

/-- `get_word56(pos) & mask(len)` for fields of at most 56 bits -/
theorem BV.getWord56_mask (v : BV) (pos len : Nat) (hl : len ≤ 56) (h0 : 0 < len) (h : pos + len ≤ 64 * v.bits.length) :
    ∃ w, v.getWord56 pos = .ok w ∧ (w &&& maskW len).toNat = valueAt v.bits pos len := by
  obtain ⟨w, hw, hb⟩ := v.getWord56_spec pos (by omega)
  refine ⟨w, hw, ?_⟩
  apply toNat_eq_valueAt _ _ _ _ _ (by omega)
  intro j hj
  rw [BitVec.getLsbD_and, maskW_getLsbD _ _ (by omega)]
  by_cases hjl : j < len
  · rw [hb j (by omega) (by omega)]; simp [hjl]
  · simp [hjl]

theorem pred1Loop_spec (v : BV) (pos : Nat) :
    ∀ (block : Nat) (word : W), block < v.bits.length →
      (∀ j, j < 64 → word.getLsbD j = (bitAt v.bits (64 * block + j) && decide (64 * block + j ≤ pos))) →
      (∀ i, 64 * block + 64 ≤ i → i ≤ pos → bitAt v.bits i = false) →
      64 * block ≤ pos → (∃ p, p ≤ pos ∧ bitAt v.bits p = true) →
      ∃ r, BV.pred1Loop v block word = .ok r ∧ r ≤ pos ∧ bitAt v.bits r = true ∧
        ∀ i, r < i → i ≤ pos → bitAt v.bits i = false := by
  intro block
  induction block with
  | zero =>
      intro word hb hw hz hbp hex
      unfold BV.pred1Loop
      cases hm : word.msb with
      | none =>
          exfalso
          obtain ⟨p, hp1, hp2⟩ := hex
          by_cases h : p < 64
          · have := hw p h
            rw [W.msb_none _ hm] at this
            simp [hp2, hp1] at this
          · rw [hz p (by omega) hp1] at hp2; cases hp2
      | some r =>
          obtain ⟨h1, h2, h3⟩ := W.msb_some _ _ hm
          rw [hw r h1] at h2
          simp only [Bool.and_eq_true, decide_eq_true_eq] at h2
          refine ⟨0 * 64 + r, rfl, by omega, ?_, ?_⟩
          · rw [← h2.1]
          · intro i hi hip
            by_cases h : i < 64
            · have := hw i h
              rw [h3 i (by omega) h] at this
              simp [hip] at this
              exact this
            · exact hz i (by omega) hip
  | succ b ih =>
      intro word hb hw hz hbp hex
      unfold BV.pred1Loop
      cases hm : word.msb with
      | none =>
          simp only
          have hb' : b < v.bits.length := by omega
          simp only [rd_ok hb', M.ok_bind]
          have hz' : ∀ i, 64 * b + 64 ≤ i → i ≤ pos → bitAt v.bits i = false := by
            intro i h1 h2
            by_cases h : i < 64 * (b + 1) + 64
            · have := hw (i - 64 * (b + 1)) (by omega)
              rw [W.msb_none _ hm] at this
              have e : 64 * (b + 1) + (i - 64 * (b + 1)) = i := by omega
              rw [e] at this
              simp [h2] at this
              exact this
            · exact hz i (by omega) h2
          obtain ⟨p, hp1, hp2⟩ := hex
          have hpb : p < 64 * b + 64 := by
            apply Nat.lt_of_not_le
            intro hle
            rw [hz' p hle hp1] at hp2; cases hp2
          apply ih _ hb' _ hz' (by omega) ⟨p, hp1, hp2⟩
          intro j hj
          rw [bitAt_word _ _ _ hb' hj]
          have : 64 * b + j ≤ pos := by omega
          simp [this]
      | some r =>
          obtain ⟨h1, h2, h3⟩ := W.msb_some _ _ hm
          rw [hw r h1] at h2
          simp only [Bool.and_eq_true, decide_eq_true_eq] at h2
          refine ⟨(b + 1) * 64 + r, rfl, by omega, ?_, ?_⟩
          · rw [← h2.1]; congr 1; omega
          · intro i hi hip
            by_cases h : i < 64 * (b + 1) + 64
            · have := hw (i - 64 * (b + 1)) (by omega)
              have e : 64 * (b + 1) + (i - 64 * (b + 1)) = i := by omega
              rw [h3 _ (by omega) (by omega), e] at this
              simp [hip] at this
              exact this
            · exact hz i (by omega) hip

theorem BV.predecessor1_spec (v : BV) (pos : Nat) (h : pos < 64 * v.bits.length)
    (hex : ∃ p, p ≤ pos ∧ bitAt v.bits p = true) :
    ∃ r, v.predecessor1 pos = .ok r ∧ r ≤ pos ∧ bitAt v.bits r = true ∧
      ∀ i, r < i → i ≤ pos → bitAt v.bits i = false := by
  have hw : pos / 64 < v.bits.length := by omega
  unfold BV.predecessor1
  simp only [rd_ok hw, M.ok_bind]
  apply pred1Loop_spec v pos _ _ hw _ (by intro i h1 h2; omega) (by omega) hex
  intro j hj
  rw [BitVec.getLsbD_ushiftRight, BitVec.getLsbD_shiftLeft]
  by_cases h1 : 64 * (pos / 64) + j ≤ pos
  · have h2 : 64 - pos % 64 - 1 + j < 64 := by omega
    rw [show 64 - pos % 64 - 1 + j - (64 - pos % 64 - 1) = j by omega, bitAt_word _ _ _ hw hj]
    simp [h1, h2]
  · have h2 : ¬ 64 - pos % 64 - 1 + j < 64 := by omega
    simp [h1, h2]

/-! ## Unary iterator -/

/-- State of a `unary_iterator` whose next one is the first one at or after `c`. -/
structure UI.Inv (v : BV) (u : UI) (c : Nat) : Prop where
  inb : u.position / 64 < v.bits.length
  lo : 64 * (u.position / 64) ≤ c
  hi : c ≤ 64 * (u.position / 64) + 64
  buf : ∀ j, j < 64 → u.buf.getLsbD j =
    (bitAt v.bits (64 * (u.position / 64) + j) && decide (c ≤ 64 * (u.position / 64) + j))

theorem UI.mk'_spec (v : BV) (pos : Nat) (h : pos < 64 * v.bits.length) :
    ∃ u, UI.mk' v pos = .ok u ∧ u.position = pos ∧ u.Inv v pos := by
  have hw : pos / 64 < v.bits.length := by omega
  unfold UI.mk'
  simp only [rd_ok hw, M.ok_bind]
  refine ⟨_, rfl, rfl, ⟨hw, by simp only; omega, by simp only; omega, ?_⟩⟩
  intro j hj
  simp only
  rw [BitVec.getLsbD_and, all_shl_getLsbD, bitAt_word _ _ _ hw hj]
  have : (pos % 64 ≤ j) ↔ (pos ≤ 64 * (pos / 64) + j) := by omega
  simp [hj, this]

theorem nextLoop_spec (v : BV) (c q : Nat) (hq : q < 64 * v.bits.length) (hcq : c ≤ q) (hfq : bitAt v.bits q = true)
    (hmin : ∀ i, c ≤ i → i < q → bitAt v.bits i = false) :
    ∀ (fuel pos : Nat) (buf : W), pos / 64 ≤ q / 64 → q / 64 < pos / 64 + fuel → c ≤ 64 * (pos / 64) + 64 →
      (∀ j, j < 64 → buf.getLsbD j = (bitAt v.bits (64 * (pos / 64) + j) && decide (c ≤ 64 * (pos / 64) + j))) →
      ∃ l buf' pos', UI.nextLoop v fuel pos buf = .ok (l, buf', pos') ∧ pos' / 64 = q / 64 ∧ l = q % 64 ∧
        buf'.getLsbD l = true ∧ (∀ j, j < l → buf'.getLsbD j = false) ∧
        (∀ j, j < 64 → buf'.getLsbD j = (bitAt v.bits (64 * (q / 64) + j) && decide (c ≤ 64 * (q / 64) + j))) := by
  intro fuel
  induction fuel with
  | zero => intro pos buf h1 h2; omega
  | succ fuel ih =>
      intro pos buf h1 h2 h3 h4
      unfold UI.nextLoop
      cases hl : buf.lsb with
      | some l =>
          obtain ⟨a1, a2, a3⟩ := W.lsb_some _ _ hl
          have a2' := a2
          rw [h4 l a1] at a2
          simp only [Bool.and_eq_true, decide_eq_true_eq] at a2
          have hql : 64 * (pos / 64) + l = q := by
            rcases Nat.lt_trichotomy (64 * (pos / 64) + l) q with h | h | h
            · rw [hmin _ a2.2 h] at a2; simp at a2
            · exact h
            · exfalso
              have := a3 (q - 64 * (pos / 64)) (by omega)
              rw [h4 _ (by omega)] at this
              rw [show 64 * (pos / 64) + (q - 64 * (pos / 64)) = q by omega] at this
              simp [hfq, hcq] at this
          have e : pos / 64 = q / 64 := by omega
          refine ⟨l, buf, pos, rfl, e, by omega, a2', a3, ?_⟩
          intro j hj
          rw [h4 j hj, e]
      | none =>
          have hnot : q / 64 ≠ pos / 64 := by
            intro e
            have := h4 (q % 64) (by omega)
            rw [W.lsb_none _ hl, show 64 * (pos / 64) + q % 64 = q by omega] at this
            simp [hfq, hcq] at this
          have e : (pos + 64) / 64 = pos / 64 + 1 := by omega
          have hw : (pos + 64) / 64 < v.bits.length := by omega
          simp only [rd_ok hw, M.ok_bind]
          apply ih (pos + 64) _ (by omega) (by omega) (by omega)
          intro j hj
          rw [bitAt_word _ _ _ hw hj]
          have : c ≤ 64 * ((pos + 64) / 64) + j := by omega
          rw [decide_eq_true this, Bool.and_true]

/-- `next()` moves to the first one at or after `c`. -/
theorem UI.next_spec (v : BV) (u : UI) (c q : Nat) (hi : u.Inv v c) (hq : q < 64 * v.bits.length) (hcq : c ≤ q)
    (hfq : bitAt v.bits q = true) (hmin : ∀ i, c ≤ i → i < q → bitAt v.bits i = false) :
    ∃ u', UI.next v u = .ok u' ∧ u'.position = q ∧ u'.Inv v (q + 1) := by
  have hlo := hi.lo
  obtain ⟨l, buf, pos, h1, h2, h3, h4, h5, h6⟩ := nextLoop_spec v c q hq hcq hfq hmin (v.bits.length + 1) u.position u.buf
    (by omega) (by omega) hi.hi hi.buf
  unfold UI.next
  rw [h1]
  simp only [M.ok_bind]
  have hp : pos / 64 * 64 + l = q := by omega
  refine ⟨_, rfl, hp, ⟨?_, ?_, ?_, ?_⟩⟩
  · simp only; omega
  · simp only; omega
  · simp only; omega
  · intro j hj
    simp only
    rw [hp, clear_lsb buf l (by omega) h4 h5, h6 j hj]
    by_cases a : j < l
    · have b := h5 j a
      rw [h6 j hj] at b
      have c1 : ¬ q + 1 ≤ 64 * (q / 64) + j := by omega
      simp [c1]
      intro b1 b2
      simp [b1, b2] at b
    · by_cases a' : j = l
      · have c1 : ¬ q + 1 ≤ 64 * (q / 64) + j := by omega
        simp [a', c1]; omega
      · have c1 : q + 1 ≤ 64 * (q / 64) + j := by omega
        have c2 : c ≤ 64 * (q / 64) + j := by omega
        simp [a', c1, c2]

theorem skipLoop_spec (v : BV) (neg : Bool) (h : Nat → Bool) (k q : Nat) (hq : q < 64 * v.bits.length)
    (hsel : IsSelect h k q) :
    ∀ (fuel skipped : Nat) (buf : W) (pos : Nat), pos / 64 ≤ q / 64 → q / 64 < pos / 64 + fuel →
      skipped = cnt h (64 * (pos / 64)) →
      (∀ j, j < 64 → buf.getLsbD j = h (64 * (pos / 64) + j)) →
      (∀ i, 64 * (pos / 64) + 64 ≤ i → i < 64 * v.bits.length → h i = (bitAt v.bits i ^^ neg)) →
      ∃ buf' pos', UI.skipLoop v neg k fuel skipped buf pos = .ok (cnt h (64 * (q / 64)), buf', pos') ∧
        pos' / 64 = q / 64 ∧ (∀ j, j < 64 → buf'.getLsbD j = h (64 * (q / 64) + j)) ∧
        buf'.select (k - cnt h (64 * (q / 64))) = q % 64 := by
  intro fuel
  induction fuel with
  | zero => intro s b pos h1 h2; omega
  | succ fuel ih =>
      intro skipped buf pos h1 h2 h3 h4 h5
      have hpop : skipped + buf.popcount = cnt h (64 * (pos / 64) + 64) := by
        rw [W.popcount_eq, cnt_add, h3, cnt_congr h4]
      unfold UI.skipLoop
      split
      · rename_i hle
        rw [hpop] at hle
        have hne : q / 64 ≠ pos / 64 := by
          intro e
          have := cnt_lt h (show q < 64 * (pos / 64) + 64 by omega) hsel.1
          have := hsel.2; omega
        have e : (pos + 64) / 64 = pos / 64 + 1 := by omega
        have hw : (pos + 64) / 64 < v.bits.length := by omega
        simp only [rd_ok hw, M.ok_bind]
        apply ih _ _ (pos + 64) (by omega) (by omega)
        · rw [hpop]; congr 1; omega
        · intro j hj
          rw [h5 _ (by omega) (by omega), ← bitAt_word _ _ _ hw hj]
          cases neg <;> simp [hj]
        · intro i hi hi2
          exact h5 i (by omega) hi2
      · rename_i hlt
        rw [hpop] at hlt
        have hqb : q < 64 * (pos / 64) + 64 := hsel.lt_of_lt_cnt (by omega)
        have e : pos / 64 = q / 64 := by omega
        refine ⟨buf, pos, by rw [h3, e], e, ?_, ?_⟩
        · intro j hj; rw [h4 j hj, e]
        · have hk : cnt h (64 * (q / 64)) ≤ k := by
            have := cnt_mono h (show 64 * (q / 64) ≤ q by omega)
            have := hsel.2; omega
          have hs := W.select_eq buf (k - cnt h (64 * (q / 64))) (by rw [e] at h3 hpop hlt; omega)
          have hs2 : IsSelect buf.getLsbD (k - cnt h (64 * (q / 64))) (q % 64) := by
            refine ⟨?_, ?_⟩
            · rw [h4 _ (by omega), show 64 * (pos / 64) + q % 64 = q by omega]; exact hsel.1
            · rw [cnt_congr (g := fun i => h (64 * (q / 64) + i)) (by intro i hi; rw [h4 i (by omega), e])]
              have := cnt_add h (64 * (q / 64)) (q % 64)
              rw [show 64 * (q / 64) + q % 64 = q by omega, hsel.2] at this
              omega
          exact hs.2.unique hs2

/-- `skip(k)` moves to the `k`-th one at or after `c`. -/
theorem UI.skip_spec (v : BV) (u : UI) (c k q : Nat) (hi : u.Inv v c) (hq : q < 64 * v.bits.length)
    (hsel : IsSelect (fun i => bitAt v.bits i && decide (c ≤ i)) k q) :
    ∃ u', UI.skip v u k = .ok u' ∧ u'.position = q ∧ u'.Inv v q := by
  have hlo := hi.lo
  have hhi := hi.hi
  have hfq := hsel.1
  simp only [Bool.and_eq_true, decide_eq_true_eq] at hfq
  obtain ⟨buf, pos, h1, h2, h3, h4⟩ := skipLoop_spec v false _ k q hq hsel (v.bits.length + 1) 0 u.buf u.position
    (by omega) (by omega) (by
      rw [cnt_zero]
      intro i hi
      have : ¬ c ≤ i := by omega
      simp [this]) hi.buf (by
      intro i h1 h2
      have : c ≤ i := by omega
      simp [this])
  unfold UI.skip
  rw [h1]
  simp only [M.ok_bind]
  rw [h4]
  have hp : pos / 64 * 64 + q % 64 = q := by omega
  refine ⟨_, rfl, hp, ⟨?_, ?_, ?_, ?_⟩⟩
  · simp only; omega
  · simp only; omega
  · simp only; omega
  · intro j hj
    simp only
    rw [hp, BitVec.getLsbD_and, all_shl_getLsbD, h3 j hj]
    by_cases a : q ≤ 64 * (q / 64) + j
    · have a1 : q % 64 ≤ j := by omega
      have a2 : c ≤ 64 * (q / 64) + j := by omega
      simp [a, a1, a2, hj]
    · have a1 : ¬ q % 64 ≤ j := by omega
      simp [a, a1]

/-- `skip0(k)` moves to the `k`-th zero at or after the current position, a one before `c` counting as a zero. -/
theorem UI.skip0_spec (v : BV) (u : UI) (c k q : Nat) (hi : u.Inv v c) (hq : q < 64 * v.bits.length)
    (hsel : IsSelect (fun i => !(bitAt v.bits i && decide (c ≤ i)) && decide (u.position ≤ i)) k q) :
    ∃ u', UI.skip0 v u k = .ok u' ∧ u'.position = q ∧ u'.Inv v (max c q) := by
  have hlo := hi.lo
  have hhi := hi.hi
  have hfq := hsel.1
  simp only [Bool.and_eq_true, decide_eq_true_eq] at hfq
  obtain ⟨buf, pos, h1, h2, h3, h4⟩ := skipLoop_spec v true _ k q hq hsel (v.bits.length + 1) 0
    (~~~u.buf &&& (W.all <<< (u.position % 64))) u.position
    (by omega) (by omega) (by
      rw [cnt_zero]
      intro i hi
      have : ¬ u.position ≤ i := by omega
      simp [this]) (by
      intro j hj
      rw [BitVec.getLsbD_and, all_shl_getLsbD, BitVec.getLsbD_not, hi.buf j hj]
      have : (u.position % 64 ≤ j) ↔ (u.position ≤ 64 * (u.position / 64) + j) := by omega
      simp [hj, this]) (by
      intro i h1 h2
      have : c ≤ i := by omega
      have : u.position ≤ i := by omega
      simp [*])
  unfold UI.skip0
  simp only
  rw [h1]
  simp only [M.ok_bind]
  rw [h4]
  have hp : pos / 64 * 64 + q % 64 = q := by omega
  refine ⟨_, rfl, hp, ⟨?_, ?_, ?_, ?_⟩⟩
  · simp only; omega
  · simp only; omega
  · simp only; omega
  · intro j hj
    simp only
    rw [hp, BitVec.getLsbD_and, all_shl_getLsbD, BitVec.getLsbD_not, h3 j hj]
    by_cases a : q ≤ 64 * (q / 64) + j
    · have a1 : q % 64 ≤ j := by omega
      have a2 : u.position ≤ 64 * (q / 64) + j := by omega
      have a3 : (max c q ≤ 64 * (q / 64) + j) ↔ c ≤ 64 * (q / 64) + j := by omega
      simp [a1, a2, a3, hj]
    · have a1 : ¬ q % 64 ≤ j := by omega
      have a3 : ¬ max c q ≤ 64 * (q / 64) + j := by omega
      simp [a1, a3]

end AC
