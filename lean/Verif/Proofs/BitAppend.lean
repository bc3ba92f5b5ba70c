import Verif.Proofs.Bits
/-! # The remaining operations of the builder: constructor, append, reverse, resize -/
namespace AC

theorem bitAt_cons (w : W) (ws : List W) (j : Nat) :
    bitAt (w :: ws) j = if j < 64 then w.getLsbD j else bitAt ws (j - 64) := by
  have := bitAt_append_list [w] ws j
  simp only [List.cons_append, List.nil_append, List.length_cons, List.length_nil, Nat.zero_add, Nat.mul_one] at this
  rw [this]
  split
  · rename_i h5
    have := bitAt_word [w] 0 j (by simp) (by omega)
    simp at this
    rw [← this]
  · rfl

theorem appendLoop_spec (shift : Nat) (hs0 : 0 < shift) (hs : shift < 64) :
    ∀ (ws bits : List W) (cur : Nat), cur + ws.length < bits.length →
      (∀ i, 64 * cur + shift ≤ i → i < 64 * cur + 64 → bitAt bits i = false) →
      ∃ r, BVB.appendLoop shift ws bits cur = .ok (r, cur + ws.length) ∧ r.length = bits.length ∧
        ∀ i, bitAt r i =
          if i < 64 * cur + shift then bitAt bits i
          else if i < 64 * cur + shift + 64 * ws.length then bitAt ws (i - (64 * cur + shift))
          else if i < 64 * (cur + ws.length) + 64 then false else bitAt bits i
  | [], bits, cur, h, hz => by
      refine ⟨bits, rfl, rfl, ?_⟩
      intro i
      simp only [List.length_nil, Nat.mul_zero, Nat.add_zero]
      split
      · rfl
      · split
        · rw [hz i (by omega) (by omega)]
        · rfl
  | w :: ws, bits, cur, h, hz => by
      simp only [List.length_cons] at h
      have hc : cur < bits.length := by omega
      unfold BVB.appendLoop
      simp only [rd_ok hc, M.ok_bind, wr_ok hc]
      have hc1 : cur + 1 < (bits.set cur (bits[cur] ||| w <<< shift)).length := by simp; omega
      simp only [wr_ok hc1, M.ok_bind]
      have step : ∀ i, bitAt ((bits.set cur (bits[cur] ||| w <<< shift)).set (cur + 1) (w >>> (64 - shift))) i =
          if i < 64 * cur + shift then bitAt bits i
          else if i < 64 * cur + shift + 64 then w.getLsbD (i - (64 * cur + shift))
          else if i < 64 * (cur + 1) + 64 then false else bitAt bits i := by
        intro i
        have hj : i % 64 < 64 := Nat.mod_lt _ (by omega)
        rw [bitAt_set _ _ _ _ hc1, bitAt_set _ _ _ _ hc]
        by_cases h1 : i / 64 = cur + 1
        · rw [if_pos h1, if_neg (by omega), BitVec.getLsbD_ushiftRight]
          have e : 64 - shift + i % 64 = i - (64 * cur + shift) := by omega
          rw [e]
          split
          · rfl
          · rw [if_pos (by omega)]
            exact getLsbD_ge _ _ (by omega)
        · rw [if_neg h1]
          by_cases h2 : i / 64 = cur
          · rw [if_pos h2, BitVec.getLsbD_or, bitAt_word _ _ _ hc hj, BitVec.getLsbD_shiftLeft]
            have e : 64 * cur + i % 64 = i := by omega
            rw [e]
            by_cases h3 : i < 64 * cur + shift
            · have : i % 64 < shift := by omega
              simp [h3, this]
            · have h4 : ¬ i % 64 < shift := by omega
              have e2 : i % 64 - shift = i - (64 * cur + shift) := by omega
              rw [hz i (by omega) (by omega), if_neg h3, if_pos (by omega), e2]
              simp [h4, hj]
          · rw [if_neg h2]
            by_cases h3 : i < 64 * cur + shift
            · simp [h3]
            · rw [if_neg h3, if_neg (by omega), if_neg (by omega)]
      obtain ⟨r, hr, hrl, hrb⟩ := appendLoop_spec shift hs0 hs ws _ (cur + 1)
        (show cur + 1 + ws.length < ((bits.set cur (bits[cur] ||| w <<< shift)).set (cur + 1) (w >>> (64 - shift))).length by
          simp; omega)
        (by
          intro i h1 h2
          rw [step, if_neg (by omega), if_neg (by omega), if_pos (by omega)])
      refine ⟨r, ?_, by rw [hrl]; simp, ?_⟩
      · rw [hr]; simp only [List.length_cons]; congr 2; omega
      · intro i
        rw [hrb, step]
        simp only [List.length_cons]
        rw [bitAt_cons]
        repeat' split
        all_goals first
          | rfl
          | (exfalso; omega)
          | (congr 1; omega)

theorem take_of_len_le {α : Type} (l : List α) (n : Nat) (h : l.length ≤ n) : l.take n = l :=
  List.take_of_length_le h

theorem dropLast_getLastD (ws : List W) (h : ws ≠ []) : ws.dropLast ++ [ws.getLastD 0] = ws := by
  rw [List.getLastD_eq_getLast?, List.getLast?_eq_some_getLast h, Option.getD_some, List.dropLast_concat_getLast h]

theorem BVB.append_spec (v rhs : BVB) (hv : v.WF) (hr : rhs.WF) :
    ∃ r, v.append rhs = .ok r ∧ r.WF ∧ r.size = v.size + rhs.size ∧
      ∀ i, bitAt r.bits i = if i < v.size then bitAt v.bits i else bitAt rhs.bits (i - v.size) := by
  have hvl := hv.len
  have hrl := hr.len
  unfold wordsFor at hvl hrl
  unfold BVB.append
  by_cases h0 : rhs.size = 0
  · rw [if_pos h0]
    refine ⟨v, rfl, hv, by omega, ?_⟩
    intro i
    split
    · rfl
    · rw [hv.pad i (by omega), hr.pad _ (by omega)]
  · rw [if_neg h0]
    have hw : wordsFor (v.size + rhs.size) ≥ v.bits.length := by unfold wordsFor; omega
    dsimp only
    rw [take_of_len_le (v.bits ++ List.replicate (wordsFor (v.size + rhs.size) - v.bits.length) 0) _
      (by simp; omega)]
    generalize hB : v.bits ++ List.replicate (wordsFor (v.size + rhs.size) - v.bits.length) 0 = B
    have hBl : B.length = (v.size + rhs.size + 63) / 64 := by
      rw [← hB]; simp [wordsFor]; unfold wordsFor at hw; omega
    have hBb : ∀ i, bitAt B i = bitAt v.bits i := by intro i; rw [← hB, bitAt_append_zeros]
    have hne : rhs.bits ≠ [] := by intro e; simp [e] at hrl; omega
    by_cases hs : v.size % 64 = 0
    · rw [if_pos hs]
      have hm : v.bits.length + rhs.bits.length ≤ B.length := by omega
      rw [memcpy_ok (by omega) (by omega)]
      have e : B.take v.bits.length ++ ((rhs.bits.drop 0).take rhs.bits.length) ++ B.drop (v.bits.length + rhs.bits.length)
          = v.bits ++ rhs.bits := by
        have h1 : B.take v.bits.length = v.bits := by rw [← hB]; simp
        have h2 : B.drop (v.bits.length + rhs.bits.length) = [] := by apply List.drop_eq_nil_of_le; omega
        rw [h1, h2]; simp
      simp only [M.ok_bind]
      have hbits : ∀ i, bitAt (v.bits ++ rhs.bits) i = if i < v.size then bitAt v.bits i else bitAt rhs.bits (i - v.size) := by
        intro i
        rw [bitAt_append_list]
        have e : 64 * v.bits.length = v.size := by omega
        rw [e]
      refine ⟨_, rfl, ⟨?_, ?_⟩, rfl, ?_⟩
      · simp only; rw [e]; simp [wordsFor]; omega
      · simp only; rw [e]
        intro i hi
        rw [hbits, if_neg (by omega), hr.pad _ (by omega)]
      · simp only; rw [e]; exact hbits
    · rw [if_neg hs]
      have hlast := dropLast_getLastD rhs.bits hne
      have hdl : rhs.bits.dropLast.length = rhs.bits.length - 1 := by simp
      have hrpos : 0 < rhs.bits.length := by omega
      obtain ⟨r, hr1, hr2, hr3⟩ := appendLoop_spec (v.size % 64) (by omega) (Nat.mod_lt _ (by omega)) rhs.bits.dropLast B
        (v.bits.length - 1) (by omega) (by
          intro i h1 h2
          rw [hBb, hv.pad i (by omega)])
      rw [hr1]
      simp only [M.ok_bind]
      generalize hcur : v.bits.length - 1 + rhs.bits.dropLast.length = cur at *
      have hcl : cur < r.length := by omega
      simp only [rd_ok hcl, M.ok_bind, wr_ok hcl]
      have hrb : ∀ j, bitAt rhs.bits j = if j / 64 = rhs.bits.length - 1 then (rhs.bits.getLastD 0).getLsbD (j % 64)
          else bitAt rhs.bits.dropLast j := by
        intro j
        have h9 := bitAt_append rhs.bits.dropLast (rhs.bits.getLastD 0) j
        rw [hlast] at h9
        rw [h9, hdl]
      generalize hlw : rhs.bits.getLastD 0 = last at *
      generalize hs' : v.size % 64 = shift at *
      have hshift : shift < 64 := by omega
      have first : ∀ i, bitAt (r.set cur (r[cur] ||| last <<< shift)) i =
          if i < v.size then bitAt v.bits i
          else if i < 64 * cur + 64 then bitAt rhs.bits (i - v.size) else false := by
        intro i
        have hj : i % 64 < 64 := Nat.mod_lt _ (by omega)
        have eb : 64 * (v.bits.length - 1) + shift = v.size := by omega
        rw [bitAt_set _ _ _ _ hcl]
        by_cases h1 : i / 64 = cur
        · rw [if_pos h1, BitVec.getLsbD_or, bitAt_word _ _ _ hcl hj, BitVec.getLsbD_shiftLeft, hr3]
          have e : 64 * cur + i % 64 = i := by omega
          rw [e, eb, hBb, hdl]
          by_cases h2 : i % 64 < shift
          · by_cases h3 : i < v.size
            · simp [h2, h3]
            · have h4 : i < v.size + 64 * (rhs.bits.length - 1) := by omega
              have h5 : i < 64 * cur + 64 := by omega
              have h6 : ¬ (i - v.size) / 64 = rhs.bits.length - 1 := by omega
              rw [if_neg h3, if_pos h4, if_neg h3, if_pos h5, hrb, if_neg h6]
              simp [h2]
          · have h3 : ¬ i < v.size := by omega
            have h4 : ¬ i < v.size + 64 * (rhs.bits.length - 1) := by omega
            have h5 : i < 64 * cur + 64 := by omega
            have h6 : (i - v.size) / 64 = rhs.bits.length - 1 := by omega
            have e2 : i % 64 - shift = (i - v.size) % 64 := by omega
            rw [if_neg h3, if_neg h4, if_pos h5, if_neg h3, if_pos h5, hrb, if_pos h6, e2]
            simp [h2, hj]
        · rw [if_neg h1, hr3, eb, hBb, hdl]
          by_cases h3 : i < v.size
          · rw [if_pos h3, if_pos h3]
          · rw [if_neg h3, if_neg h3]
            by_cases h4 : i < v.size + 64 * (rhs.bits.length - 1)
            · rw [if_pos h4, if_pos (by omega), hrb, if_neg (by omega)]
            · rw [if_neg h4, if_neg (by omega), if_neg (by omega), hv.pad i (by omega)]
      simp only [List.length_set]
      split
      · rename_i hlt
        have hc1 : cur + 1 < (r.set cur (r[cur] ||| last <<< shift)).length := by simp; omega
        simp only [wr_ok hc1, M.ok_bind]
        have second : ∀ i, bitAt ((r.set cur (r[cur] ||| last <<< shift)).set (cur + 1) (last >>> (64 - shift))) i =
            if i < v.size then bitAt v.bits i else bitAt rhs.bits (i - v.size) := by
          intro i
          have hj : i % 64 < 64 := Nat.mod_lt _ (by omega)
          rw [bitAt_set _ _ _ _ hc1, first]
          by_cases h1 : i / 64 = cur + 1
          · rw [if_pos h1, if_neg (by omega), BitVec.getLsbD_ushiftRight]
            by_cases h2 : i - v.size < 64 * rhs.bits.length
            · rw [hrb, if_pos (by omega)]
              congr 1; omega
            · rw [hr.pad _ (by omega)]
              exact getLsbD_ge _ _ (by omega)
          · rw [if_neg h1]
            split
            · rfl
            · split
              · rfl
              · rw [hr.pad _ (by omega)]
        refine ⟨_, rfl, ⟨by simp [wordsFor]; omega, ?_⟩, rfl, second⟩
        intro i hi
        simp only at hi ⊢
        rw [second, if_neg (by omega), hr.pad _ (by omega)]
      · rename_i hlt
        have second : ∀ i, bitAt (r.set cur (r[cur] ||| last <<< shift)) i =
            if i < v.size then bitAt v.bits i else bitAt rhs.bits (i - v.size) := by
          intro i
          rw [first]
          split
          · rfl
          · split
            · rfl
            · rw [hr.pad _ (by omega)]
        refine ⟨_, rfl, ⟨by simp [wordsFor]; omega, ?_⟩, rfl, second⟩
        intro i hi
        simp only at hi ⊢
        rw [second, if_neg (by omega), hr.pad _ (by omega)]

theorem reverseWord_getLsbD (x : W) (j : Nat) (hj : j < 64) : (BVB.reverseWord x).getLsbD j = x.getLsbD (63 - j) := by
  unfold BVB.reverseWord
  rw [BitVec.getLsbD_reverse, BitVec.getMsbD_eq_getLsbD]
  simp [hj]

theorem reverseLoop_length (shift : Nat) : ∀ (ws : List W) (rem : W), (BVB.reverseLoop shift ws rem).length = ws.length
  | [], _ => rfl
  | w :: ws, rem => by unfold BVB.reverseLoop; split <;> simp [reverseLoop_length shift ws]

/-- bit `63 - j` of output word `k` is bit `64 k + j` of the input delayed by `shift` -/
theorem reverseLoop_spec (shift : Nat) (hs0 : 0 < shift) (hs : shift < 64) :
    ∀ (ws : List W) (rem : W) (k j : Nat), (∀ i, shift ≤ i → rem.getLsbD i = false) → k < ws.length → j < 64 →
      bitAt (BVB.reverseLoop shift ws rem) (64 * k + (63 - j)) =
        if 64 * k + j < shift then rem.getLsbD (64 * k + j) else bitAt ws (64 * k + j - shift)
  | [], rem, k, j, hrem, hk, hj => by simp at hk
  | w :: ws, rem, k, j, hrem, hk, hj => by
      unfold BVB.reverseLoop
      rw [if_pos (by omega), bitAt_cons]
      cases k with
      | zero =>
          rw [if_pos (by omega), reverseWord_getLsbD _ _ (by omega), BitVec.getLsbD_or, BitVec.getLsbD_shiftLeft, bitAt_cons]
          have e : 63 - (64 * 0 + (63 - j)) = j := by omega
          have e1 : 64 * 0 + j = j := by omega
          rw [e, e1]
          by_cases h1 : j < shift
          · simp [h1]
          · rw [hrem j (by omega)]
            rw [if_neg h1, if_pos (by omega)]
            simp [h1, hj]
      | succ k =>
          rw [if_neg (by omega)]
          have e : 64 * (k + 1) + (63 - j) - 64 = 64 * k + (63 - j) := by omega
          rw [e, reverseLoop_spec shift hs0 hs ws (w >>> (64 - shift)) k j (by
            intro i hi
            rw [BitVec.getLsbD_ushiftRight]; exact getLsbD_ge _ _ (by omega)) (by simpa using hk) hj]
          rw [BitVec.getLsbD_ushiftRight, bitAt_cons]
          rw [if_neg (show ¬ 64 * (k + 1) + j < shift by omega)]
          split
          · rw [if_pos (by omega)]
            congr 1; omega
          · rw [if_neg (by omega)]
            congr 1; omega

theorem reverseLoop64_spec : ∀ (ws : List W) (rem : W) (k j : Nat), k < ws.length → j < 64 →
      bitAt (BVB.reverseLoop 64 ws rem) (64 * k + (63 - j)) = bitAt ws (64 * k + j)
  | [], rem, k, j, hk, hj => by simp at hk
  | w :: ws, rem, k, j, hk, hj => by
      unfold BVB.reverseLoop
      rw [if_neg (by omega), bitAt_cons]
      cases k with
      | zero =>
          rw [if_pos (by omega), reverseWord_getLsbD _ _ (by omega), bitAt_cons, if_pos (by omega)]
          congr 1; omega
      | succ k =>
          rw [if_neg (by omega)]
          have e : 64 * (k + 1) + (63 - j) - 64 = 64 * k + (63 - j) := by omega
          rw [e, reverseLoop64_spec ws rem k j (by simpa using hk) hj, bitAt_cons, if_neg (by omega)]
          congr 1; omega

theorem bitAt_reverse (ws : List W) (i : Nat) (hi : i < 64 * ws.length) :
    bitAt ws.reverse i = bitAt ws (64 * (ws.length - 1 - i / 64) + i % 64) := by
  unfold bitAt
  have e1 : (64 * (ws.length - 1 - i / 64) + i % 64) / 64 = ws.length - 1 - i / 64 := by omega
  have e2 : (64 * (ws.length - 1 - i / 64) + i % 64) % 64 = i % 64 := by omega
  rw [e1, e2, List.getD_eq_getElem?_getD, List.getD_eq_getElem?_getD, List.getElem?_reverse (by omega)]

theorem BVB.reverse_bitAt (v : BVB) (h : v.WF) (i : Nat) :
    bitAt v.reverse.bits i = if i < v.size then bitAt v.bits (v.size - 1 - i) else false := by
  have hl := h.len
  unfold wordsFor at hl
  unfold BVB.reverse
  simp only
  by_cases hi : i < 64 * v.bits.length
  · rw [bitAt_reverse _ _ (by rw [reverseLoop_length]; exact hi), reverseLoop_length]
    have e : i % 64 = 63 - (63 - i % 64) := by omega
    rw [e]
    by_cases hs : v.size % 64 = 0
    · have e64 : 64 - v.size % 64 = 64 := by omega
      rw [e64, reverseLoop64_spec _ _ _ _ (by omega) (by omega), if_pos (by omega)]
      congr 1; omega
    · rw [reverseLoop_spec _ (by omega) (by omega) _ _ _ _ (by intro i _; simp) (by omega) (by omega)]
      by_cases h1 : i < v.size
      · rw [if_pos h1, if_neg (by omega)]
        congr 1; omega
      · rw [if_neg h1, if_pos (by omega)]; simp
  · rw [if_neg (by omega)]
    apply bitAt_of_length_le
    rw [List.length_reverse, reverseLoop_length]; omega

theorem BVB.reverse_wf (v : BVB) (h : v.WF) : v.reverse.WF := by
  refine ⟨?_, ?_⟩
  · unfold BVB.reverse
    simp only [List.length_reverse, reverseLoop_length]
    exact h.len
  · intro i hi
    rw [BVB.reverse_bitAt v h, if_neg]
    have : v.reverse.size = v.size := rfl
    omega

theorem bitAt_replicate_zero (n i : Nat) : bitAt (List.replicate n 0) i = false := by
  have := bitAt_append_zeros [] n i
  rw [List.nil_append] at this
  rw [this]; simp [bitAt]

theorem BVB.mk'_spec (n : Nat) (b : Bool) :
    (BVB.mk' n b).WF ∧ (BVB.mk' n b).size = n ∧ ∀ i, bitAt (BVB.mk' n b).bits i = (decide (i < n) && b) := by
  have key : (BVB.mk' n b).bits.length = wordsFor n ∧ ∀ i, bitAt (BVB.mk' n b).bits i = (decide (i < n) && b) := by
    unfold BVB.mk'
    cases b
    · refine ⟨by simp, ?_⟩
      intro i
      have := bitAt_replicate_zero (wordsFor n) i
      simpa using this
    · simp only [if_true, true_and]
      have hrep : ∀ m i, bitAt (List.replicate m W.all) i = decide (i < 64 * m) := by
        intro m i
        unfold bitAt
        rw [List.getD_eq_getElem?_getD, List.getElem?_replicate]
        split
        · rw [Option.getD_some, all_getLsbD]; simp; omega
        · simp; omega
      split
      · rename_i hc
        have hpos : 0 < wordsFor n := by unfold wordsFor; omega
        refine ⟨by simp; omega, ?_⟩
        intro i
        have hgl : (List.replicate (wordsFor n) W.all).getLastD 0 = W.all := by
          rw [List.getLastD_eq_getLast?, List.getLast?_replicate, if_neg (by omega)]; rfl
        rw [bitAt_append, hgl, BitVec.getLsbD_ushiftRight, all_getLsbD]
        simp only [List.dropLast_replicate, List.length_replicate, hrep]
        unfold wordsFor
        split
        · simp; omega
        · simp; omega
      · rename_i hc
        refine ⟨by simp, ?_⟩
        intro i
        rw [hrep]
        unfold wordsFor
        simp; omega
  refine ⟨⟨key.1, ?_⟩, rfl, key.2⟩
  intro i hi
  rw [key.2]
  have : (BVB.mk' n b).size = n := rfl
  simp; omega

theorem BVB.resize_spec (v : BVB) (n : Nat) (h : v.WF) :
    (v.resize n).bits.length = wordsFor n ∧ (v.resize n).size = n ∧
      ∀ i, i < n → bitAt (v.resize n).bits i = bitAt v.bits i := by
  unfold BVB.resize
  refine ⟨by simp; omega, rfl, ?_⟩
  intro i hi
  simp only
  have := bitAt_append_zeros v.bits (wordsFor n - v.bits.length) i
  rw [← this]
  unfold bitAt
  congr 1
  have : i / 64 < wordsFor n := by unfold wordsFor; omega
  rw [List.getD_eq_getElem?_getD, List.getD_eq_getElem?_getD, List.getElem?_take_of_lt this]

end AC
