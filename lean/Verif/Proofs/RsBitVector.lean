import Verif.Proofs.Pack9
import Verif.Proofs.Bits
import Verif.Proofs.BitCount
/-!
# Rank and select
-/
namespace AC

/-- number of ones among the first `n` bits -/
def ones (ws : List W) (n : Nat) : Nat := cnt (bitAt ws) n

/-- number of ones of block `b` before its `j`-th word -/
def subOnes (ws : List W) (b j : Nat) : Nat := ones ws (64 * (8 * b + j)) - ones ws (512 * b)

theorem ones_mono (ws : List W) {a b : Nat} (h : a ≤ b) : ones ws a ≤ ones ws b := cnt_mono _ h

theorem ones_word (ws : List W) (k : Nat) (hk : k < ws.length) : ones ws (64 * (k + 1)) = ones ws (64 * k) + ws[k].popcount := by
  unfold ones
  rw [Nat.mul_add, cnt_add, W.popcount_eq]
  congr 1
  apply cnt_congr
  intro i hi
  exact (bitAt_word ws k i hk hi).symm

theorem ones_end (ws : List W) (n : Nat) (h : 64 * ws.length ≤ n) : ones ws n = ones ws (64 * ws.length) := by
  obtain ⟨m, rfl⟩ := Nat.exists_eq_add_of_le h
  unfold ones
  rw [cnt_add, cnt_zero (n := m)]
  · rfl
  · intro i _; exact bitAt_of_length_le ws _ (by omega)

theorem subOnes_le (ws : List W) (b j : Nat) : subOnes ws b j ≤ 64 * j := by
  unfold subOnes ones
  have e : 64 * (8 * b + j) = 512 * b + 64 * j := by omega
  rw [e]
  have := cnt_le_add (bitAt ws) (512 * b) (64 * j)
  omega

theorem subOnes_lt (ws : List W) (b j : Nat) (hj : j ≤ 7) : subOnes ws b j < 512 := by
  have := subOnes_le ws b j; omega

theorem subOnes_zero (ws : List W) (b : Nat) : subOnes ws b 0 = 0 := by
  unfold subOnes
  have e : 64 * (8 * b + 0) = 512 * b := by omega
  rw [e]; omega

namespace RS

structure PairInv (ws : List W) (i : Nat) (s : PSt) : Prop where
  len : s.pairs.length = 2 * (i / 8) + 1
  rank : ∀ b, b ≤ i / 8 → ∃ x : W, s.pairs[2 * b]? = some x ∧ x.toNat = ones ws (512 * b)
  sub : ∀ b, b < i / 8 → ∃ x : W, s.pairs[2 * b + 1]? = some x ∧ x.toNat = pk 0 (subOnes ws b) 7
  next : s.nextRank = ones ws (64 * i)
  cur : s.curSub = subOnes ws (i / 8) (i % 8)
  part : s.subranks.toNat = pk 0 (subOnes ws (i / 8)) (i % 8 - 1)

theorem pairStep_spec {ws : List W} {i : Nat} {s : PSt} (h : PairInv ws i s) (hi : i < ws.length) (hb : 64 * ws.length < 2 ^ 64) :
    PairInv ws (i + 1) (pairStep i ws[i] s) := by
  have hword := ones_word ws i hi
  have hsub : (if i % 8 ≠ 0 then shiftIn s.subranks s.curSub else s.subranks).toNat = pk 0 (subOnes ws (i / 8)) (i % 8) := by
    have h1 := h.part
    have h2 := h.cur
    split
    · rename_i h0
      obtain ⟨r, hr⟩ : ∃ r, i % 8 = r + 1 := ⟨i % 8 - 1, by omega⟩
      rw [hr] at h1 h2 ⊢
      rw [h2]
      exact shiftIn_toNat (by simpa using h1) (by omega) (fun j _ hj => subOnes_lt ws _ j (by omega))
    · rename_i h0
      have h0 : i % 8 = 0 := by omega
      rw [h0] at h1 ⊢; exact h1
  have hcur : s.curSub + W.popcount ws[i] = subOnes ws (i / 8) (i % 8 + 1) := by
    rw [h.cur]
    unfold subOnes
    have e1 : 8 * (i / 8) + i % 8 = i := by omega
    have e2 : 8 * (i / 8) + (i % 8 + 1) = i + 1 := by omega
    rw [e1, e2, hword]
    have := ones_mono ws (show 512 * (i / 8) ≤ 64 * i by omega)
    omega
  have hnext : s.nextRank + W.popcount ws[i] = ones ws (64 * (i + 1)) := by rw [h.next, hword]
  unfold pairStep
  simp only
  split
  · rename_i h7
    have e1 : (i + 1) / 8 = i / 8 + 1 := by omega
    have e2 : (i + 1) % 8 = 0 := by omega
    have e3 : 64 * (i + 1) = 512 * (i / 8 + 1) := by omega
    have hlen := h.len
    constructor
    · simp only [List.length_append, List.length_cons, List.length_nil, hlen, e1]
      omega
    · intro b hb'
      rw [e1] at hb'
      by_cases hbb : b = i / 8 + 1
      · refine ⟨BitVec.ofNat 64 (s.nextRank + W.popcount ws[i]), ?_, ?_⟩
        · rw [List.getElem?_append_right (by omega), hlen]
          have : 2 * b - (2 * (i / 8) + 1) = 1 := by omega
          rw [this]; rfl
        · rw [hnext, hbb, ← e3, BitVec.toNat_ofNat]
          apply Nat.mod_eq_of_lt
          have := cnt_le (bitAt ws) (64 * (i + 1))
          unfold ones; omega
      · obtain ⟨x, hx, hx2⟩ := h.rank b (by omega)
        refine ⟨x, ?_, hx2⟩
        rw [List.getElem?_append_left (by omega)]; exact hx
    · intro b hb'
      rw [e1] at hb'
      by_cases hbb : b = i / 8
      · refine ⟨_, ?_, hsub.trans (by rw [h7, hbb])⟩
        rw [List.getElem?_append_right (by omega), hlen]
        have : 2 * b + 1 - (2 * (i / 8) + 1) = 0 := by omega
        rw [this]; rfl
      · obtain ⟨x, hx, hx2⟩ := h.sub b (by omega)
        refine ⟨x, ?_, hx2⟩
        rw [List.getElem?_append_left (by omega)]; exact hx
    · exact hnext
    · rw [e2, subOnes_zero]
    · rw [e2]; rfl
  · rename_i h7
    have e1 : (i + 1) / 8 = i / 8 := by omega
    have e2 : (i + 1) % 8 = i % 8 + 1 := by omega
    constructor
    · rw [e1]; exact h.len
    · rw [e1]; exact h.rank
    · rw [e1]; exact h.sub
    · exact hnext
    · rw [e1, e2]; exact hcur
    · rw [e1, e2]; exact hsub

theorem pairLoop_spec {ws : List W} (hb : 64 * ws.length < 2 ^ 64) : ∀ (vs : List W) (i : Nat) (s : PSt), PairInv ws i s →
    ws.drop i = vs → i ≤ ws.length → PairInv ws ws.length (pairLoop i vs s) := by
  intro vs
  induction vs with
  | nil =>
      intro i s h hd hi
      rw [List.drop_eq_nil_iff] at hd
      have : i = ws.length := by omega
      subst this; exact h
  | cons w vs ih =>
      intro i s h hd hi
      have hlt : i < ws.length := by
        apply Nat.lt_of_not_le
        intro hc
        rw [List.drop_eq_nil_of_le hc] at hd
        cases hd
      rw [List.drop_eq_getElem_cons hlt, List.cons.injEq] at hd
      unfold pairLoop
      rw [← hd.1]
      exact ih (i + 1) _ (pairStep_spec h hlt hb) hd.2 (by omega)

/-- the index built -/
structure Pairs (ws pairs : List W) : Prop where
  len : pairs.length = 2 * ((ws.length + 7) / 8 + 1)
  rank : ∀ b, b ≤ (ws.length + 7) / 8 → ∃ x : W, pairs[2 * b]? = some x ∧ x.toNat = ones ws (512 * b)
  sub : ∀ b, b ≤ (ws.length + 7) / 8 → ∃ x : W, pairs[2 * b + 1]? = some x ∧ x.toNat = pk 0 (subOnes ws b) 7

theorem repeat_shiftIn {d : Nat → Nat} {c : Nat} (hd : ∀ j, 1 ≤ j → j ≤ 7 → d j < 512) : ∀ (m r : Nat) (x : W), x.toNat = pk 0 d r → r + m ≤ 7 →
    (∀ j, r < j → j ≤ r + m → d j = c) → (Nat.repeat (fun x => shiftIn x c) m x).toNat = pk 0 d (r + m) := by
  intro m
  induction m with
  | zero => intro r x hx _ _; exact hx
  | succ m ih =>
      intro r x hx hr hj
      unfold Nat.repeat
      have h1 := ih r x hx (by omega) (fun j a b => hj j a (by omega))
      have h2 := shiftIn_toNat h1 (by omega) (fun j a b => hd j a (by omega))
      rw [hj (r + m + 1) (by omega) (by omega)] at h2
      exact h2

theorem repeat_zero (m : Nat) : Nat.repeat (fun x => shiftIn x 0) m (0 : W) = 0 := by
  induction m with
  | zero => rfl
  | succ m ih => unfold Nat.repeat; rw [ih]; decide

theorem subOnes_end (ws : List W) (b j : Nat) (h : ws.length ≤ 8 * b + j) :
    subOnes ws b j = ones ws (64 * ws.length) - ones ws (512 * b) := by
  unfold subOnes
  rw [ones_end ws (64 * (8 * b + j)) (by omega)]

theorem buildPairs_spec {ws : List W} (hb : 64 * ws.length < 2 ^ 64) : Pairs ws (buildPairs ws) := by
  have h := pairLoop_spec hb ws 0 ⟨[0], 0, 0, 0⟩ (by
    constructor
    · rfl
    · intro b hb; refine ⟨0, ?_, ?_⟩
      · have : b = 0 := by omega
        subst this; rfl
      · have : b = 0 := by omega
        subst this; rfl
    · intro b hb; omega
    · rfl
    · exact (subOnes_zero ws 0).symm
    · rfl) rfl (Nat.zero_le _)
  unfold buildPairs
  simp only
  generalize pairLoop 0 ws ⟨[0], 0, 0, 0⟩ = s at h
  have hlen := h.len
  -- the subranks of the last block
  have hsub : (Nat.repeat (fun x => shiftIn x s.curSub) (8 - ws.length % 8) s.subranks).toNat =
      pk 0 (subOnes ws (ws.length / 8)) 7 := by
    by_cases h0 : ws.length % 8 = 0
    · have hc := h.cur
      rw [h0, subOnes_zero] at hc
      have hp := h.part
      rw [h0] at hp
      have hp0 : s.subranks = 0 := BitVec.eq_of_toNat_eq hp
      rw [hc, hp0, repeat_zero]
      have : pk 0 (subOnes ws (ws.length / 8)) 7 = pk 0 (fun _ => 0) 7 := by
        apply pk_congr
        intro j _ _
        rw [subOnes_end ws _ j (by omega)]
        have e : 512 * (ws.length / 8) = 64 * ws.length := by omega
        rw [e]; omega
      rw [this]; rfl
    · have e : 8 - ws.length % 8 = 8 - ws.length % 8 := rfl
      have h1 := repeat_shiftIn (c := s.curSub) (fun j _ hj => subOnes_lt ws (ws.length / 8) j hj) (8 - ws.length % 8)
        (ws.length % 8 - 1) s.subranks h.part (by omega) (by
          intro j h1 h2
          rw [h.cur, subOnes_end ws _ j (by omega), subOnes_end ws _ _ (by omega)])
      rw [h1]; congr 1; omega
  generalize Nat.repeat (fun x => shiftIn x s.curSub) (8 - ws.length % 8) s.subranks = sub at hsub
  split
  · rename_i h0
    have en : (ws.length + 7) / 8 = ws.length / 8 + 1 := by omega
    constructor
    · simp only [List.length_append, List.length_cons, List.length_nil, hlen]; omega
    · intro b hb'
      rw [en] at hb'
      by_cases hbb : b = ws.length / 8 + 1
      · refine ⟨BitVec.ofNat 64 s.nextRank, ?_, ?_⟩
        · rw [List.getElem?_append_right (by simp; omega)]
          have : 2 * b - (s.pairs ++ [sub]).length = 0 := by simp; omega
          rw [this]; rfl
        · rw [h.next, ones_end ws (512 * b) (by omega), BitVec.toNat_ofNat]
          apply Nat.mod_eq_of_lt
          have := cnt_le (bitAt ws) (64 * ws.length)
          unfold ones; omega
      · obtain ⟨x, hx, hx2⟩ := h.rank b (by omega)
        refine ⟨x, ?_, hx2⟩
        rw [List.append_assoc, List.getElem?_append_left (by omega)]; exact hx
    · intro b hb'
      rw [en] at hb'
      by_cases hbb : b = ws.length / 8 + 1
      · refine ⟨0, ?_, ?_⟩
        · rw [List.getElem?_append_right (by simp; omega)]
          have : 2 * b + 1 - (s.pairs ++ [sub]).length = 1 := by simp; omega
          rw [this]; rfl
        · have : pk 0 (subOnes ws b) 7 = pk 0 (fun _ => 0) 7 := by
            apply pk_congr
            intro j _ _
            rw [subOnes_end ws _ j (by omega), ones_end ws (512 * b) (by omega)]
            omega
          rw [this]; rfl
      · by_cases hbc : b = ws.length / 8
        · refine ⟨sub, ?_, by rw [hsub, hbc]⟩
          rw [List.append_assoc, List.getElem?_append_right (by omega), hlen]
          have : 2 * b + 1 - (2 * (ws.length / 8) + 1) = 0 := by omega
          rw [this]; rfl
        · obtain ⟨x, hx, hx2⟩ := h.sub b (by omega)
          refine ⟨x, ?_, hx2⟩
          rw [List.append_assoc, List.getElem?_append_left (by omega)]; exact hx
  · rename_i h0
    have en : (ws.length + 7) / 8 = ws.length / 8 := by omega
    constructor
    · simp only [List.length_append, List.length_cons, List.length_nil, hlen]; omega
    · intro b hb'
      obtain ⟨x, hx, hx2⟩ := h.rank b (by omega)
      refine ⟨x, ?_, hx2⟩
      rw [List.getElem?_append_left (by omega)]; exact hx
    · intro b hb'
      by_cases hbc : b = ws.length / 8
      · refine ⟨sub, ?_, by rw [hsub, hbc]⟩
        rw [List.getElem?_append_right (by omega), hlen]
        have : 2 * b + 1 - (2 * (ws.length / 8) + 1) = 0 := by omega
        rw [this]; rfl
      · obtain ⟨x, hx, hx2⟩ := h.sub b (by omega)
        refine ⟨x, ?_, hx2⟩
        rw [List.getElem?_append_left (by omega)]; exact hx


/-- the bits counted -/
def side (zeros : Bool) (ws : List W) (i : Nat) : Bool := if zeros then !bitAt ws i else bitAt ws i

/-- the number of ones, or zeros, before block `b` -/
def before (zeros : Bool) (ws : List W) (b : Nat) : Nat := cnt (side zeros ws) (512 * b)

theorem before_true (ws : List W) (n : Nat) : cnt (side true ws) n = n - ones ws n := by
  have := cnt_not (bitAt ws) n
  have h : cnt (side true ws) n = cnt (fun i => !bitAt ws i) n := rfl
  unfold ones
  omega

theorem before_mono {zeros : Bool} {ws : List W} {a b : Nat} (h : a ≤ b) : before zeros ws a ≤ before zeros ws b :=
  cnt_mono _ (by omega)

theorem before_step (zeros : Bool) (ws : List W) (b : Nat) : before zeros ws (b + 1) ≤ before zeros ws b + 512 := by
  unfold before
  rw [Nat.mul_add]
  exact cnt_le_add _ _ _

variable {ws pairs : List W}

theorem numBlocks_spec (h : Pairs ws pairs) : numBlocks pairs = (ws.length + 7) / 8 := by
  unfold numBlocks; have := h.len; omega

theorem blockRank_spec (h : Pairs ws pairs) {b : Nat} (hb : b ≤ (ws.length + 7) / 8) : blockRank pairs b = .ok (ones ws (512 * b)) := by
  obtain ⟨x, h1, h2⟩ := h.rank b hb
  unfold blockRank
  rw [Nat.mul_comm, rd_of_getElem? h1, ← h2]; rfl

theorem blockRank0_spec (h : Pairs ws pairs) {b : Nat} (hb : b ≤ (ws.length + 7) / 8) :
    blockRank0 pairs b = .ok (before true ws b) := by
  obtain ⟨x, h1, h2⟩ := h.rank b hb
  unfold blockRank0 before
  rw [Nat.mul_comm, rd_of_getElem? h1, before_true, ← h2]
  have e : 2 * b * 8 = 16 * b := by omega
  simp only [M.ok_bind]
  congr 2
  omega

theorem blockRankOf_spec (h : Pairs ws pairs) (zeros : Bool) {b : Nat} (hb : b ≤ (ws.length + 7) / 8) :
    blockRankOf zeros pairs b = .ok (before zeros ws b) := by
  unfold blockRankOf
  cases zeros
  · exact blockRank_spec h hb
  · exact blockRank0_spec h hb

/-- the hints: every 1024 ones (or zeros) the block where the next one is found -/
structure Hints (zeros : Bool) (ws : List W) (hs : List Nat) (n : Nat) : Prop where
  at_ : ∀ (k i : Nat), hs[k]? = some i → i < n ∧ before zeros ws i ≤ 1024 * (k + 1) ∧ 1024 * (k + 1) < before zeros ws (i + 1)
  last : before zeros ws n ≤ 1024 * (hs.length + 1)

theorem hintLoop_spec (h : Pairs ws pairs) (zeros : Bool) : ∀ (fuel i : Nat) (hs : List Nat), i + fuel = (ws.length + 7) / 8 →
    Hints zeros ws hs i → ∃ hs', hintLoop zeros pairs fuel i (1024 * (hs.length + 1)) hs = .ok hs' ∧ Hints zeros ws hs' ((ws.length + 7) / 8) := by
  intro fuel
  induction fuel with
  | zero => intro i hs hi hh; refine ⟨hs, rfl, ?_⟩; rw [← hi]; exact hh
  | succ fuel ih =>
      intro i hs hi hh
      unfold hintLoop
      rw [blockRankOf_spec h zeros (by omega)]
      simp only [M.ok_bind]
      have hstep := before_step zeros ws i
      have hlast := hh.last
      split
      · rename_i hgt
        have e : 1024 * (hs.length + 1) + 1024 = 1024 * ((hs ++ [i]).length + 1) := by simp; omega
        rw [e]
        refine ih (i + 1) (hs ++ [i]) (by omega) ⟨?_, ?_⟩
        · intro k j hk
          by_cases hlt : k < hs.length
          · rw [List.getElem?_append_left hlt] at hk
            obtain ⟨a, b, c⟩ := hh.at_ k j hk
            exact ⟨by omega, b, c⟩
          · rw [List.getElem?_append_right (by omega)] at hk
            have hk0 : k = hs.length := by
              rcases Nat.eq_zero_or_pos (k - hs.length) with h0 | h0
              · omega
              · rw [List.getElem?_eq_none (by simp; omega)] at hk; cases hk
            subst hk0
            simp only [Nat.sub_self, List.getElem?_cons_zero, Option.some.injEq] at hk
            subst hk
            exact ⟨by omega, hlast, hgt⟩
        · rw [← e]; omega
      · rename_i hgt
        refine ih (i + 1) hs (by omega) ⟨?_, by omega⟩
        intro k j hk
        obtain ⟨a, b, c⟩ := hh.at_ k j hk
        exact ⟨by omega, b, c⟩

/-- a list of hints as built: empty or complete -/
def HintsOk (zeros : Bool) (ws : List W) (hs : List Nat) : Prop :=
  hs = [] ∨ ∃ hs', hs = hs' ++ [(ws.length + 7) / 8] ∧ Hints zeros ws hs' ((ws.length + 7) / 8)

theorem buildHints_spec (h : Pairs ws pairs) (zeros wanted : Bool) :
    ∃ hs, buildHints zeros wanted pairs = .ok hs ∧ HintsOk zeros ws hs := by
  unfold buildHints
  cases wanted
  · exact ⟨[], rfl, Or.inl rfl⟩
  · obtain ⟨hs, e1, e2⟩ := hintLoop_spec h zeros (numBlocks pairs) 0 [] (by rw [numBlocks_spec h]; omega)
      ⟨by intro k i hk; simp at hk, by simp [before, cnt]⟩
    simp only [List.length_nil, Nat.zero_add, Nat.mul_one] at e1
    simp only [if_true, e1, M.ok_bind]
    exact ⟨_, rfl, Or.inr ⟨hs, by rw [numBlocks_spec h], e2⟩⟩

theorem hinted_spec (h : Pairs ws pairs) {zeros : Bool} {hs : List Nat} (hh : HintsOk zeros ws hs) {n : Nat}
    (hn : n < before zeros ws ((ws.length + 7) / 8)) :
    ∃ a b, hinted pairs hs n = .ok (a, b) ∧ a < b ∧ b ≤ (ws.length + 7) / 8 + 1 ∧ before zeros ws a ≤ n ∧
      (n < before zeros ws b ∨ b = (ws.length + 7) / 8 + 1) := by
  unfold hinted
  have hb0 : before zeros ws 0 = 0 := rfl
  rcases hh with rfl | ⟨hs', rfl, hh⟩
  · refine ⟨0, numBlocks pairs, rfl, ?_⟩
    rw [numBlocks_spec h]
    refine ⟨?_, by omega, by omega, Or.inl hn⟩
    apply Nat.pos_of_ne_zero
    intro hc
    rw [hc] at hn; omega
  · simp only [List.length_append, List.length_singleton, ne_eq, Nat.succ_ne_zero, not_false_eq_true, if_true]
    have hlast := hh.last
    have hc : n / 1024 ≤ hs'.length := by omega
    -- the upper end
    have hup : ∃ t, (hs' ++ [(ws.length + 7) / 8])[n / 1024]? = some t ∧ t + 1 ≤ (ws.length + 7) / 8 + 1 ∧
        (n < before zeros ws (t + 1) ∨ t + 1 = (ws.length + 7) / 8 + 1) := by
      by_cases hlt : n / 1024 < hs'.length
      · refine ⟨hs'[n / 1024], ?_, ?_⟩
        · rw [List.getElem?_append_left hlt, List.getElem?_eq_getElem hlt]
        · obtain ⟨a, b, c⟩ := hh.at_ (n / 1024) _ (List.getElem?_eq_getElem hlt)
          exact ⟨by omega, Or.inl (by omega)⟩
      · have e : n / 1024 = hs'.length := by omega
        refine ⟨_, ?_, Nat.le_refl _, Or.inr rfl⟩
        rw [e, List.getElem?_concat_length]
    obtain ⟨t, t1, t2, t3⟩ := hup
    rw [rd_of_getElem? t1]
    simp only [M.ok_bind]
    split
    · rename_i h0
      have hlt : n / 1024 - 1 < hs'.length := by omega
      obtain ⟨a, b, c⟩ := hh.at_ (n / 1024 - 1) _ (List.getElem?_eq_getElem hlt)
      have e : (hs' ++ [(ws.length + 7) / 8])[n / 1024 - 1]? = some hs'[n / 1024 - 1] := by
        rw [List.getElem?_append_left hlt, List.getElem?_eq_getElem hlt]
      rw [rd_of_getElem? e]
      have hle : before zeros ws hs'[n / 1024 - 1] ≤ n := by omega
      refine ⟨_, _, rfl, ?_, t2, hle, t3⟩
      rcases t3 with t3 | t3
      · apply Nat.lt_of_not_le
        intro hc
        have := before_mono (zeros := zeros) (ws := ws) hc
        omega
      · omega
    · exact ⟨0, t + 1, rfl, by omega, t2, by omega, t3⟩

theorem blockLoop_spec (h : Pairs ws pairs) (zeros : Bool) {n : Nat} (hn : n < before zeros ws ((ws.length + 7) / 8)) :
    ∀ (fuel a b : Nat), b - a < fuel → a < b → b ≤ (ws.length + 7) / 8 + 1 → before zeros ws a ≤ n →
      (n < before zeros ws b ∨ b = (ws.length + 7) / 8 + 1) →
      ∃ k, blockLoop zeros pairs n fuel a b = .ok k ∧ k < (ws.length + 7) / 8 ∧ before zeros ws k ≤ n ∧ n < before zeros ws (k + 1) := by
  intro fuel
  induction fuel with
  | zero => intro a b hf; omega
  | succ fuel ih =>
      intro a b hf hab hb ha hnb
      unfold blockLoop
      split
      · rename_i hgt
        simp only
        rw [blockRankOf_spec h zeros (by omega)]
        simp only [M.ok_bind]
        split
        · rename_i hle
          exact ih _ _ (by omega) (by omega) hb hle hnb
        · rename_i hle
          exact ih _ _ (by omega) (by omega) (by omega) ha (Or.inl (by omega))
      · have e : b = a + 1 := by omega
        subst e
        have hne : a ≠ (ws.length + 7) / 8 := by intro hc; rw [hc] at ha; omega
        refine ⟨a, rfl, by omega, ha, ?_⟩
        rcases hnb with hnb | hnb
        · exact hnb
        · omega

/-- the number of ones, or zeros, of block `b` before its `j`-th word -/
def subSide (zeros : Bool) (ws : List W) (b j : Nat) : Nat := cnt (side zeros ws) (64 * (8 * b + j)) - before zeros ws b

theorem side_before_le (zeros : Bool) (ws : List W) (b j : Nat) : before zeros ws b ≤ cnt (side zeros ws) (64 * (8 * b + j)) :=
  cnt_mono _ (by omega)

theorem subSide_lt (zeros : Bool) (ws : List W) (b j : Nat) (hj : j ≤ 7) : subSide zeros ws b j < 512 := by
  unfold subSide before
  have e : 64 * (8 * b + j) = 512 * b + 64 * j := by omega
  rw [e]
  have := cnt_le_add (side zeros ws) (512 * b) (64 * j)
  omega

/-- the packed counts of a block -/
theorem subOf_spec (h : Pairs ws pairs) {b : Nat} (hb : b ≤ (ws.length + 7) / 8) :
    ∃ x : W, rd pairs (b * 2 + 1) = .ok x ∧ x.toNat = pk 0 (subSide false ws b) 7 ∧ (64 * W.invCount9 - x).toNat = pk 0 (subSide true ws b) 7 := by
  obtain ⟨x, h1, h2⟩ := h.sub b hb
  refine ⟨x, ?_, h2, ?_⟩
  · rw [Nat.mul_comm]; exact rd_of_getElem? h1
  · have hle : ∀ j, 1 ≤ j → j ≤ 7 → subOnes ws b j ≤ 64 * j := fun j _ _ => subOnes_le ws b j
    rw [BitVec.toNat_sub_of_le]
    · rw [invCount9_toNat, h2, pk_sub (Nat.le_refl _) hle]
      apply pk_congr
      intro j h1 h7
      unfold subSide before
      rw [before_true, before_true]
      unfold subOnes
      have a1 := ones_mono ws (show 512 * b ≤ 64 * (8 * b + j) by omega)
      have a2 : ones ws (64 * (8 * b + j)) ≤ 64 * (8 * b + j) := cnt_le _ _
      have a3 : ones ws (512 * b) ≤ 512 * b := cnt_le _ _
      have a4 := hle j h1 h7
      unfold subOnes at a4
      omega
    · rw [BitVec.le_def, invCount9_toNat, h2]
      exact pk_le (Nat.le_refl _) hle

/-- the last step of `select`: the word within a block, and the bit within the word -/
theorem select_tail {zeros : Bool} {x : W} {k n : Nat} (hx : x.toNat = pk 0 (subSide zeros ws k) 7)
    (hk : before zeros ws k ≤ n) (hk' : n < before zeros ws (k + 1)) (hn : n < cnt (side zeros ws) (64 * ws.length)) :
    ∃ hw : k * 8 + subOffset x (n - before zeros ws k) < ws.length,
      IsSelect (side zeros ws) n ((k * 8 + subOffset x (n - before zeros ws k)) * 64 +
        W.select (if zeros then ~~~ws[k * 8 + subOffset x (n - before zeros ws k)] else ws[k * 8 + subOffset x (n - before zeros ws k)])
          (n - (before zeros ws k + field x (subOffset x (n - before zeros ws k))))) := by
  have hs := before_step zeros ws k
  obtain ⟨ho, hoj⟩ := subOffset_spec hx (fun j _ hj => subSide_lt zeros ws k j hj) (k := n - before zeros ws k) (by omega) (by
    intro j _ _
    unfold subSide
    have := cnt_mono (side zeros ws) (show 64 * (8 * k + j) ≤ 64 * (8 * k + (j + 1)) by omega)
    omega)
  have hz : subSide zeros ws k 0 = 0 := by
    unfold subSide before
    have e : 64 * (8 * k + 0) = 512 * k := by omega
    rw [e]; omega
  have hf := field_spec hx (fun j _ hj => subSide_lt zeros ws k j hj) hz
  generalize subOffset x (n - before zeros ws k) = o at *
  rw [hf o ho]
  have hle : ∀ j, before zeros ws k ≤ cnt (side zeros ws) (64 * (8 * k + j)) := fun j => side_before_le zeros ws k j
  -- the count before the word is at most n
  have h1 : cnt (side zeros ws) (64 * (8 * k + o)) ≤ n := by
    by_cases h0 : o = 0
    · subst h0
      have := hle 0
      unfold subSide at hz
      omega
    · have := (hoj o (by omega) ho).mp (Nat.le_refl _)
      unfold subSide at this
      have := hle o
      omega
  have h2 : n < cnt (side zeros ws) (64 * (8 * k + o + 1)) := by
    by_cases h7 : o = 7
    · subst h7
      have e : 64 * (8 * k + 7 + 1) = 512 * (k + 1) := by omega
      rw [e]; exact hk'
    · have := mt (hoj (o + 1) (by omega) (by omega)).mpr (by omega)
      unfold subSide at this
      have := hle (o + 1)
      rw [Nat.add_assoc]
      omega
  have e1 : k * 8 + o = 8 * k + o := by omega
  rw [e1]
  generalize hq : 8 * k + o = q at *
  have hw : q < ws.length := by
    apply Nat.lt_of_not_le
    intro hc
    have := cnt_mono (side zeros ws) (show 64 * ws.length ≤ 64 * q by omega)
    omega
  refine ⟨hw, ?_⟩
  have e2 : before zeros ws k + subSide zeros ws k o = cnt (side zeros ws) (64 * q) := by
    unfold subSide
    have := hle o
    rw [hq] at *
    omega
  rw [e2]
  -- the bits of the word
  have hbits : ∀ i, i < 64 → (if zeros then ~~~ws[q] else ws[q]).getLsbD i = side zeros ws (64 * q + i) := by
    intro i hi
    unfold side
    cases zeros
    · simp only [Bool.false_eq_true, if_false]; exact bitAt_word ws q i hw hi
    · simp only [if_true]
      rw [BitVec.getLsbD_not, bitAt_word ws q i hw hi]
      simp [hi]
  generalize (if zeros then ~~~ws[q] else ws[q]) = w at hbits
  have hc : cnt (side zeros ws) (64 * (q + 1)) = cnt (side zeros ws) (64 * q) + W.popcount w := by
    rw [Nat.mul_add, cnt_add, W.popcount_eq]
    congr 1
    apply cnt_congr
    intro i hi
    exact (hbits i hi).symm
  obtain ⟨s1, s2, s3⟩ := W.select_eq w (n - cnt (side zeros ws) (64 * q)) (by omega)
  constructor
  · rw [Nat.mul_comm q 64, ← hbits _ s1]; exact s2
  · rw [Nat.mul_comm q 64, cnt_add]
    have : cnt (fun i => side zeros ws (64 * q + i)) (W.select w (n - cnt (side zeros ws) (64 * q))) =
        cnt w.getLsbD (W.select w (n - cnt (side zeros ws) (64 * q))) := by
      apply cnt_congr
      intro i hi
      exact (hbits i (by omega)).symm
    rw [this, s3]; omega

/-- what the structure stands for: bits `v` with their index -/
structure Rep (r : RS) : Prop where
  wf : r.bv.bits.length = wordsFor r.bv.size
  pad : ∀ i, r.bv.size ≤ i → bitAt r.bv.bits i = false
  pairs : Pairs r.bv.bits r.pairs
  hints : HintsOk false r.bv.bits r.hints
  hints0 : HintsOk true r.bv.bits r.hints0

theorem build_spec {b : BVB} (hb : b.WF) (after : W) (h1 h0 : Bool) (hsz : b.size < 2 ^ 63) :
    ∃ r, build (BV.build b after) h1 h0 = .ok r ∧ r.bv = BV.build b after ∧ r.Rep := by
  have hl := hb.len
  unfold wordsFor at hl
  have hp := buildPairs_spec (ws := b.bits) (by omega)
  obtain ⟨a1, a2, a3⟩ := buildHints_spec hp false h1
  obtain ⟨b1, b2, b3⟩ := buildHints_spec hp true h0
  unfold build
  simp only [BV.build, a2, b2, M.ok_bind]
  exact ⟨_, rfl, rfl, hb.len, hb.pad, hp, a3, b3⟩

variable {r : RS}

theorem numOnes_spec (h : r.Rep) : r.numOnes = .ok (ones r.bv.bits r.bv.size) := by
  have hl := h.pairs.len
  obtain ⟨x, h1, h2⟩ := h.pairs.rank ((r.bv.bits.length + 7) / 8) (Nat.le_refl _)
  unfold numOnes
  rw [if_neg (by omega)]
  have e : r.pairs.length - 2 = 2 * ((r.bv.bits.length + 7) / 8) := by omega
  rw [e, rd_of_getElem? h1]
  simp only [M.ok_bind, h2]
  have hw := h.wf
  unfold wordsFor at hw
  congr 1
  obtain ⟨m, hm⟩ := Nat.exists_eq_add_of_le (show r.bv.size ≤ 512 * ((r.bv.bits.length + 7) / 8) by omega)
  unfold ones
  rw [hm, cnt_add, cnt_zero (n := m)]
  · rfl
  · intro i _; exact h.pad _ (by omega)

theorem subBlockRank_spec (h : r.Rep) {k : Nat} (hk : k / 8 ≤ (r.bv.bits.length + 7) / 8) :
    r.subBlockRank k = .ok (ones r.bv.bits (64 * k)) := by
  obtain ⟨x, h1, h2, _⟩ := subOf_spec h.pairs hk
  unfold subBlockRank
  simp only
  rw [blockRank_spec h.pairs hk]
  simp only [M.ok_bind]
  rw [h1]
  simp only [M.ok_bind]
  rw [field_spec h2 (fun j _ hj => subSide_lt false r.bv.bits (k / 8) j hj) (by
    unfold subSide before
    have e : 64 * (8 * (k / 8) + 0) = 512 * (k / 8) := by omega
    rw [e]; omega) (k % 8) (by omega)]
  apply congrArg Except.ok
  have := side_before_le false r.bv.bits (k / 8) (k % 8)
  unfold subSide
  have e : 8 * (k / 8) + k % 8 = k := by omega
  rw [e] at this ⊢
  have e1 : before false r.bv.bits (k / 8) = ones r.bv.bits (512 * (k / 8)) := rfl
  have e2 : cnt (side false r.bv.bits) (64 * k) = ones r.bv.bits (64 * k) := rfl
  omega

theorem rank_spec (h : r.Rep) {pos : Nat} (hp : pos ≤ r.bv.size) : r.rank pos = .ok (ones r.bv.bits pos) := by
  unfold rank
  split
  · rename_i he; subst he; exact numOnes_spec h
  · have hw := h.wf
    unfold wordsFor at hw
    rw [subBlockRank_spec h (by omega)]
    simp only [M.ok_bind]
    have hlt : pos / 64 < r.bv.bits.length := by omega
    split
    · rw [rd_ok hlt]
      simp only [M.ok_bind]
      congr 1
      have e : pos = 64 * (pos / 64) + pos % 64 := by omega
      generalize hq : pos / 64 = q at *
      generalize hr : pos % 64 = s at *
      subst e
      unfold ones
      rw [cnt_add, W.popcount_eq]
      congr 1
      have e2 : 64 = (64 - s) + s := by omega
      rw [show cnt (BitVec.getLsbD (r.bv.bits[q] <<< (64 - s))) 64 = cnt (BitVec.getLsbD (r.bv.bits[q] <<< (64 - s))) ((64 - s) + s) from by rw [← e2],
        cnt_add, cnt_zero]
      · rw [Nat.zero_add]
        apply cnt_congr
        intro i hi
        rw [BitVec.getLsbD_shiftLeft]
        have h1 : 64 - s + i < 64 := by omega
        have h2 : ¬ (64 - s + i < 64 - s) := by omega
        have h3 : 64 - s + i - (64 - s) = i := by omega
        simp only [h1, h2, h3, decide_true, decide_false, Bool.not_false, Bool.and_true, Bool.true_and]
        exact bitAt_word r.bv.bits q i hlt (by omega)
      · intro i hi
        rw [BitVec.getLsbD_shiftLeft]
        simp [hi]
    · congr 2; omega

theorem select_spec (h : r.Rep) {n : Nat} (hn : n < cnt (bitAt r.bv.bits) r.bv.size) :
    ∃ p, r.select n = .ok p ∧ p < r.bv.size ∧ IsSelect (bitAt r.bv.bits) n p := by
  have hw := h.wf
  unfold wordsFor at hw
  have hn1 : n < cnt (side false r.bv.bits) (64 * r.bv.bits.length) :=
    Nat.lt_of_lt_of_le hn (cnt_mono _ (by omega))
  have hn2 : n < before false r.bv.bits ((r.bv.bits.length + 7) / 8) :=
    Nat.lt_of_lt_of_le hn1 (cnt_mono _ (by omega))
  obtain ⟨a, b, e1, e2, e3, e4, e5⟩ := hinted_spec h.pairs h.hints hn2
  obtain ⟨k, f1, f2, f3, f4⟩ := blockLoop_spec h.pairs false hn2 (b - a + 1) a b (by omega) e2 e3 e4 e5
  obtain ⟨x, g1, g2, _⟩ := subOf_spec h.pairs (show k ≤ (r.bv.bits.length + 7) / 8 by omega)
  obtain ⟨i1, i2⟩ := select_tail g2 f3 f4 hn1
  unfold select
  rw [e1]
  simp only [M.ok_bind]
  rw [f1]
  simp only [M.ok_bind]
  rw [blockRank_spec h.pairs (by omega), g1]
  simp only [M.ok_bind]
  have e : ones r.bv.bits (512 * k) = before false r.bv.bits k := rfl
  rw [e, rd_ok i1]
  refine ⟨_, rfl, ?_, i2⟩
  exact IsSelect.lt_of_lt_cnt i2 hn

theorem select0_spec (h : r.Rep) {n : Nat} (hn : n < cnt (fun i => !bitAt r.bv.bits i) r.bv.size) :
    ∃ p, r.select0 n = .ok p ∧ p < r.bv.size ∧ IsSelect (fun i => !bitAt r.bv.bits i) n p := by
  have hw := h.wf
  unfold wordsFor at hw
  have hn1 : n < cnt (side true r.bv.bits) (64 * r.bv.bits.length) :=
    Nat.lt_of_lt_of_le hn (cnt_mono _ (by omega))
  have hn2 : n < before true r.bv.bits ((r.bv.bits.length + 7) / 8) :=
    Nat.lt_of_lt_of_le hn1 (cnt_mono _ (by omega))
  obtain ⟨a, b, e1, e2, e3, e4, e5⟩ := hinted_spec h.pairs h.hints0 hn2
  obtain ⟨k, f1, f2, f3, f4⟩ := blockLoop_spec h.pairs true hn2 (b - a + 1) a b (by omega) e2 e3 e4 e5
  obtain ⟨x, g1, _, g2⟩ := subOf_spec h.pairs (show k ≤ (r.bv.bits.length + 7) / 8 by omega)
  obtain ⟨i1, i2⟩ := select_tail g2 f3 f4 hn1
  unfold select0
  rw [e1]
  simp only [M.ok_bind]
  rw [f1]
  simp only [M.ok_bind]
  rw [blockRank0_spec h.pairs (by omega), g1]
  simp only [M.ok_bind]
  rw [rd_ok i1]
  refine ⟨_, rfl, ?_, i2⟩
  exact IsSelect.lt_of_lt_cnt i2 hn

end RS
end AC
