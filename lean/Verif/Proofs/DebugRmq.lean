import Verif.Model.DebugRmq
import Verif.Proofs.DebugStoreList
import Verif.Proofs.CartesianTree
/-!
# Rank, select and range-minimum queries: the assertions hold
-/
namespace AC

namespace RS

variable {ws pairs : List W} {r : RS}

/-- before the last step of `select`: the rank of the word and the number of its bits -/
theorem select_tail_bounds {zeros : Bool} {x : W} {k n : Nat} (hx : x.toNat = pk 0 (subSide zeros ws k) 7)
    (hk : before zeros ws k ≤ n) (hk' : n < before zeros ws (k + 1)) (hn : n < cnt (side zeros ws) (64 * ws.length)) :
    before zeros ws k + field x (subOffset x (n - before zeros ws k)) ≤ n ∧
    ∃ hw : k * 8 + subOffset x (n - before zeros ws k) < ws.length,
      n - (before zeros ws k + field x (subOffset x (n - before zeros ws k))) <
        W.popcount (if zeros then ~~~ws[k * 8 + subOffset x (n - before zeros ws k)] else ws[k * 8 + subOffset x (n - before zeros ws k)]) := by
  have hs := before_step zeros ws k
  obtain ⟨ho, hoj⟩ := subOffset_spec hx (fun j _ hj => subSide_lt zeros ws k j hj) (k := n - before zeros ws k) (by omega) (by
    intro j _ _
    unfold subSide
    have := cnt_mono (side zeros ws) (show 64 * (8 * k + j) ≤ 64 * (8 * k + (j + 1)) by omega)
    omega)
  have hz : subSide zeros ws k 0 = 0 := by
    unfold subSide before
    have e : 64 * (8 * k + 0) = 512 * k := by omega
    rw [e]; omega
  have hf := field_spec hx (fun j _ hj => subSide_lt zeros ws k j hj) hz
  generalize subOffset x (n - before zeros ws k) = o at *
  rw [hf o ho]
  have hle : ∀ j, before zeros ws k ≤ cnt (side zeros ws) (64 * (8 * k + j)) := fun j => side_before_le zeros ws k j
  have h1 : cnt (side zeros ws) (64 * (8 * k + o)) ≤ n := by
    by_cases h0 : o = 0
    · subst h0
      have := hle 0
      unfold subSide at hz
      omega
    · have := (hoj o (by omega) ho).mp (Nat.le_refl _)
      unfold subSide at this
      have := hle o
      omega
  have h2 : n < cnt (side zeros ws) (64 * (8 * k + o + 1)) := by
    by_cases h7 : o = 7
    · subst h7
      have e : 64 * (8 * k + 7 + 1) = 512 * (k + 1) := by omega
      rw [e]; exact hk'
    · have := mt (hoj (o + 1) (by omega) (by omega)).mpr (by omega)
      unfold subSide at this
      have := hle (o + 1)
      rw [Nat.add_assoc]
      omega
  have e1 : k * 8 + o = 8 * k + o := by omega
  rw [e1]
  generalize hq : 8 * k + o = q at *
  have hw : q < ws.length := by
    apply Nat.lt_of_not_le
    intro hc
    have := cnt_mono (side zeros ws) (show 64 * ws.length ≤ 64 * q by omega)
    omega
  have e2 : before zeros ws k + subSide zeros ws k o = cnt (side zeros ws) (64 * q) := by
    unfold subSide
    have := hle o
    rw [hq] at *
    omega
  rw [e2]
  refine ⟨h1, hw, ?_⟩
  have hbits : ∀ i, i < 64 → (if zeros then ~~~ws[q] else ws[q]).getLsbD i = side zeros ws (64 * q + i) := by
    intro i hi
    unfold side
    cases zeros
    · simp only [Bool.false_eq_true, if_false]; exact bitAt_word ws q i hw hi
    · simp only [if_true]
      rw [BitVec.getLsbD_not, bitAt_word ws q i hw hi]
      simp [hi]
  generalize (if zeros then ~~~ws[q] else ws[q]) = w at hbits
  have hc : cnt (side zeros ws) (64 * (q + 1)) = cnt (side zeros ws) (64 * q) + W.popcount w := by
    rw [Nat.mul_add, cnt_add, W.popcount_eq]
    congr 1
    apply cnt_congr
    intro i hi
    exact (hbits i hi).symm
  omega

theorem numZeros_spec (h : r.Rep) : r.numZeros = .ok (cnt (fun i => !bitAt r.bv.bits i) r.bv.size) := by
  unfold numZeros
  rw [numOnes_spec h, M.ok_bind]
  apply congrArg Except.ok
  have := cnt_not (bitAt r.bv.bits) r.bv.size
  unfold ones
  omega

theorem rankD_eq {pos : Nat} (hp : pos ≤ r.bv.size) : r.rankD pos = r.rank pos := by
  unfold rankD
  rw [check_bind hp]

theorem selectD_eq (h : r.Rep) {n : Nat} (hn : n < cnt (bitAt r.bv.bits) r.bv.size) : r.selectD n = r.select n := by
  have hw := h.wf
  unfold wordsFor at hw
  have hn1 : n < cnt (side false r.bv.bits) (64 * r.bv.bits.length) :=
    Nat.lt_of_lt_of_le hn (cnt_mono _ (by omega))
  have hn2 : n < before false r.bv.bits ((r.bv.bits.length + 7) / 8) :=
    Nat.lt_of_lt_of_le hn1 (cnt_mono _ (by omega))
  obtain ⟨a, b, e1, e2, e3, e4, e5⟩ := hinted_spec h.pairs h.hints hn2
  obtain ⟨k, f1, f2, f3, f4⟩ := blockLoop_spec h.pairs false hn2 (b - a + 1) a b (by omega) e2 e3 e4 e5
  obtain ⟨x, g1, g2, _⟩ := subOf_spec h.pairs (show k ≤ (r.bv.bits.length + 7) / 8 by omega)
  obtain ⟨i0, i1, i2⟩ := select_tail_bounds g2 f3 f4 hn1
  have e : blockRank r.pairs k = .ok (before false r.bv.bits k) := blockRank_spec h.pairs (by omega)
  unfold selectD select
  rw [numOnes_spec h, M.ok_bind, check_bind (by exact hn), e1]
  simp only [M.ok_bind]
  rw [f1]
  simp only [M.ok_bind]
  rw [check_bind (by rw [numBlocks_spec h.pairs]; exact f2), e]
  simp only [M.ok_bind]
  rw [check_bind f3, g1, M.ok_bind, M.ok_bind]
  rw [check_bind i0, rd_ok i1, M.ok_bind, M.ok_bind, W.selectD_eq (by simpa using i2), M.ok_bind]

theorem select0D_eq (h : r.Rep) {n : Nat} (hn : n < cnt (fun i => !bitAt r.bv.bits i) r.bv.size) : r.select0D n = r.select0 n := by
  have hw := h.wf
  unfold wordsFor at hw
  have hn1 : n < cnt (side true r.bv.bits) (64 * r.bv.bits.length) :=
    Nat.lt_of_lt_of_le hn (cnt_mono _ (by omega))
  have hn2 : n < before true r.bv.bits ((r.bv.bits.length + 7) / 8) :=
    Nat.lt_of_lt_of_le hn1 (cnt_mono _ (by omega))
  obtain ⟨a, b, e1, e2, e3, e4, e5⟩ := hinted_spec h.pairs h.hints0 hn2
  obtain ⟨k, f1, f2, f3, f4⟩ := blockLoop_spec h.pairs true hn2 (b - a + 1) a b (by omega) e2 e3 e4 e5
  obtain ⟨x, g1, _, g2⟩ := subOf_spec h.pairs (show k ≤ (r.bv.bits.length + 7) / 8 by omega)
  obtain ⟨i0, i1, i2⟩ := select_tail_bounds g2 f3 f4 hn1
  unfold select0D select0
  rw [numZeros_spec h, M.ok_bind, check_bind hn, e1]
  simp only [M.ok_bind]
  rw [f1]
  simp only [M.ok_bind]
  rw [check_bind (by rw [numBlocks_spec h.pairs]; exact f2), blockRank0_spec h.pairs (by omega)]
  simp only [M.ok_bind]
  rw [check_bind f3, g1, M.ok_bind, M.ok_bind]
  rw [check_bind i0, rd_ok i1, M.ok_bind, M.ok_bind, W.selectD_eq (by simpa using i2), M.ok_bind]

theorem check_false {p : Prop} [Decidable p] {α : Type} {f : Unit → M α} (h : ¬ p) : (check p >>= f) = .error .aborted := by
  unfold check
  rw [if_neg h]
  rfl

theorem rankD_guard {pos : Nat} (hp : r.bv.size < pos) : r.rankD pos = .error .aborted := by
  unfold rankD
  rw [check_false (by omega)]

theorem selectD_guard (h : r.Rep) {n : Nat} (hn : cnt (bitAt r.bv.bits) r.bv.size ≤ n) : r.selectD n = .error .aborted := by
  unfold selectD
  rw [numOnes_spec h, M.ok_bind, check_false (by unfold ones; omega)]

theorem select0D_guard (h : r.Rep) {n : Nat} (hn : cnt (fun i => !bitAt r.bv.bits i) r.bv.size ≤ n) : r.select0D n = .error .aborted := by
  unfold select0D
  rw [numZeros_spec h, M.ok_bind, check_false (by omega)]

end RS

namespace BP

variable {b : BP}

theorem checkMin_ok {x : Int} (h1 : -32768 ≤ x) (h2 : x ≤ 32767) : checkMin x = .ok () := by
  unfold checkMin
  rw [check_bind h1, check_true h2]

theorem checkMin_inv {ws : List W} {size k i : Nat} {s : MinSt} (h : MinInv ws size k i s) (hi : i ≤ 64) : checkMin s.curMin = .ok () := by
  have := minOver_bound (ws := ws) (a := 256 * (k / 4)) (n := 64 * k + i - 256 * (k / 4)) (d := 8192) (s := 8192 * (k / 128))
    (by omega) (by omega)
  have e := h.min
  exact checkMin_ok (by omega) (by omega)

theorem minLoopD_eq {ws : List W} {size : Nat} (hlen : ws.length = wordsFor size) : ∀ (vs : List W) (k : Nat) (s : MinSt),
    vs = ws.drop k → k ≤ ws.length → PreInv ws size k s → minLoopD size ws.length k vs s = .ok (minLoop size ws.length k vs s) := by
  unfold wordsFor at hlen
  intro vs
  induction vs with
  | nil => intro k s _ _ _; rfl
  | cons w vs ih =>
      intro k s hv hk h
      have hkl : k < ws.length := by
        have := congrArg List.length hv; simp at this; omega
      rw [List.drop_eq_getElem_cons hkl] at hv
      injection hv with hw hvs
      have h1 := wordStart_spec h (by omega)
      have hD : wordStartD k s = .ok (wordStart k s) := by
        unfold wordStartD
        split
        · rename_i hc
          rcases h with ⟨h0, _⟩ | ⟨h0, hi⟩
          · omega
          · rw [checkMin_inv hi (by omega), M.ok_bind]
        · rfl
      show (do
        let s ← wordStartD k s
        minLoopD size ws.length (k + 1) vs ((List.range (if k = ws.length - 1 ∧ size % 64 ≠ 0 then size % 64 else 64)).foldl (bitStep w) s)) = _
      rw [hD, M.ok_bind]
      apply ih (k + 1) _ hvs (by omega)
      right
      refine ⟨by omega, ?_⟩
      rw [hw]
      have e : (if k = ws.length - 1 ∧ size % 64 ≠ 0 then size % 64 else 64) = min 64 (size - 64 * k) := by
        split <;> omega
      rw [e, Nat.add_sub_cancel]
      exact bitStep_spec hkl _ (by omega) _ h1

theorem buildBlocksD_eq {ws : List W} {size : Nat} (hlen : ws.length = wordsFor size) (hs : 0 < size) :
    buildBlocksD ws size = .ok (buildBlocks ws size) := by
  have h0 : PreInv ws size 0 ⟨[], 0, 0⟩ := Or.inl ⟨rfl, rfl⟩
  have h := minLoop_spec hlen ws 0 ⟨[], 0, 0⟩ rfl (Nat.zero_le _) h0
  unfold buildBlocksD
  rw [minLoopD_eq hlen ws 0 _ rfl (Nat.zero_le _) h0, M.ok_bind]
  unfold wordsFor at hlen
  rcases h with ⟨h0, _⟩ | ⟨h0, hi⟩
  · omega
  · rw [checkMin_inv hi (by omega), M.ok_bind]
    rfl

/-- no prefix has more closing than opening parentheses -/
def Pos (b : BP) : Prop := ∀ i, i ≤ b.rs.bv.size → 0 ≤ exW b.rs.bv.bits i

theorem blockExcessD_eq {r : RS} (h : r.Rep) (hsz : r.bv.size < 2 ^ 31) {k : Nat} (hk : 256 * k ≤ r.bv.size)
    (hp : 0 ≤ exW r.bv.bits (256 * k)) : blockExcessD r k = .ok (exW r.bv.bits (256 * k)) := by
  unfold blockExcessD
  rw [blockExcess_spec h hk hsz, M.ok_bind, check_bind hp]

theorem blockExcessD_abort {r : RS} (h : r.Rep) (hsz : r.bv.size < 2 ^ 31) {k : Nat} (hk : 256 * k ≤ r.bv.size)
    (hp : exW r.bv.bits (256 * k) < 0) : blockExcessD r k = .error .aborted := by
  unfold blockExcessD
  rw [blockExcess_spec h hk hsz, M.ok_bind, RS.check_false (by omega)]

theorem sm_le_first (ws : List W) (size k : Nat) : sm ws size k ≤ exW ws (8192 * k) := by
  unfold sm
  exact minOver_le _ _ _ _ (Nat.le_refl _) (by omega)

theorem exW_le (ws : List W) {q n : Nat} (h : q < n) : exW ws q < n := by
  have hd := exW_diff ws 0 q
  rw [exW_zero, Nat.zero_add] at hd
  omega

theorem leafValuesD_step {r : RS} {blocks : List Int} (h : r.Rep) (hsz : r.bv.size < 2 ^ 31)
    (hb : blocks = (List.range ((r.bv.bits.length + 3) / 4)).map (fun j => bm r.bv.bits r.bv.size j - exW r.bv.bits (8192 * (j / 32))))
    {n k : Nat} (hk : k + (n + 1) = ((r.bv.bits.length + 3) / 4 + 31) / 32) :
    leafValuesD r blocks (n + 1) k = if 0 ≤ sm r.bv.bits r.bv.size k then (do
      let l ← leafValuesD r blocks n (k + 1)
      .ok (sm r.bv.bits r.bv.size k :: l)) else .error .aborted := by
  have hlen := h.wf
  unfold wordsFor at hlen
  have hbl : blocks.length = (r.bv.bits.length + 3) / 4 := by rw [hb]; simp
  have hint : int32 (r.bv.size : Int) = r.bv.size := by apply int32_id <;> omega
  have e0 : 256 * (k * 32) = 8192 * k := by omega
  have l0 : 256 * (k * 32) ≤ r.bv.size := by omega
  have l1 : 32 * k ≤ k * 32 := by omega
  have l2 : k * 32 + (min ((k + 1) * 32) ((r.bv.bits.length + 3) / 4) - k * 32) ≤ 32 * (k + 1) := by omega
  have l3 : k * 32 + (min ((k + 1) * 32) ((r.bv.bits.length + 3) / 4) - k * 32) ≤ (r.bv.bits.length + 3) / 4 := by omega
  have l4 : 0 < k * 32 + (min ((k + 1) * 32) ((r.bv.bits.length + 3) / 4) - k * 32) - 32 * k := by omega
  have l5 : k * 32 = 32 * k := by omega
  have l6 : min (256 * (k * 32 + (min ((k + 1) * 32) ((r.bv.bits.length + 3) / 4) - k * 32))) r.bv.size - 8192 * k
        = min (8192 * (k + 1)) r.bv.size - 8192 * k := by omega
  have l7 : 8192 * k < r.bv.size := by omega
  have hf := sm_le_first r.bv.bits r.bv.size k
  have hlt : sm r.bv.bits r.bv.size k < r.bv.size := Int.lt_of_le_of_lt hf (exW_le _ l7)
  show (do
    let e ← blockExcessD r (k * 32)
    let m ← leafLoop blocks e (min ((k + 1) * 32) blocks.length - k * 32) (k * 32) (int32 r.bv.size)
    check (0 ≤ m ∧ m < int32 r.bv.size)
    let l ← leafValuesD r blocks n (k + 1)
    .ok (m :: l)) = _
  by_cases hp : 0 ≤ exW r.bv.bits (8192 * k)
  · rw [blockExcessD_eq h hsz l0 (by rw [e0]; exact hp), M.ok_bind, e0, hbl,
      leafLoop_spec h.wf hb k _ _ _ l1 l2 l3 (by rw [if_pos l5, hint]) l4, M.ok_bind]
    have e1 : minOver (exW r.bv.bits) (8192 * k)
        (min (256 * (k * 32 + (min ((k + 1) * 32) ((r.bv.bits.length + 3) / 4) - k * 32))) r.bv.size - 8192 * k) = sm r.bv.bits r.bv.size k := by
      unfold sm
      rw [l6]
    rw [e1, hint]
    by_cases hs : 0 ≤ sm r.bv.bits r.bv.size k
    · rw [if_pos hs, check_bind ⟨hs, hlt⟩]
    · rw [if_neg hs, RS.check_false (fun hc => hs hc.1)]
  · rw [blockExcessD_abort h hsz l0 (by rw [e0]; exact Int.not_le.mp hp), if_neg (fun hc => hp (Int.le_trans hc hf))]
    rfl

theorem leafValuesD_eq {r : RS} {blocks : List Int} (h : r.Rep) (hsz : r.bv.size < 2 ^ 31)
    (hb : blocks = (List.range ((r.bv.bits.length + 3) / 4)).map (fun j => bm r.bv.bits r.bv.size j - exW r.bv.bits (8192 * (j / 32)))) :
    ∀ n k, k + n = ((r.bv.bits.length + 3) / 4 + 31) / 32 → (∀ j, k ≤ j → j < k + n → 0 ≤ sm r.bv.bits r.bv.size j) →
    leafValuesD r blocks n k = leafValues r blocks n k := by
  intro n
  induction n with
  | zero => intro k _ _; rfl
  | succ n ih =>
      intro k hk hp
      rw [leafValuesD_step h hsz hb hk, if_pos (hp k (Nat.le_refl _) (by omega)),
        ih (k + 1) (by omega) (fun j j1 j2 => hp j (by omega) (by omega)), leafValues_spec h hsz hb n (k + 1) (by omega),
        leafValues_spec h hsz hb (n + 1) k hk, M.ok_bind]
      apply congrArg Except.ok
      rw [List.range_succ_eq_map, List.map_cons, List.map_map]
      apply congrArg (List.cons _)
      apply List.map_congr_left
      intro i _
      rw [Function.comp_apply, Nat.add_assoc, Nat.add_comm 1 i]

theorem leafValuesD_abort {r : RS} {blocks : List Int} (h : r.Rep) (hsz : r.bv.size < 2 ^ 31)
    (hb : blocks = (List.range ((r.bv.bits.length + 3) / 4)).map (fun j => bm r.bv.bits r.bv.size j - exW r.bv.bits (8192 * (j / 32)))) :
    ∀ n k, k + n = ((r.bv.bits.length + 3) / 4 + 31) / 32 → (∃ j, k ≤ j ∧ j < k + n ∧ sm r.bv.bits r.bv.size j < 0) →
    leafValuesD r blocks n k = .error .aborted := by
  intro n
  induction n with
  | zero => intro k _ ⟨j, j1, j2, _⟩; omega
  | succ n ih =>
      intro k hk ⟨j, j1, j2, j3⟩
      rw [leafValuesD_step h hsz hb hk]
      split
      · rename_i hs
        have : j ≠ k := by intro hc; subst hc; omega
        rw [ih (k + 1) (by omega) ⟨j, by omega, by omega, j3⟩]
        rfl
      · rfl

theorem buildTreeD_form {r : RS} (h : r.Rep) (h0 : 0 < r.bv.size) : buildTreeD r = (do
    let blocks := buildBlocks r.bv.bits r.bv.size
    let nSuper := ((r.bv.bits.length + 3) / 4 + 31) / 32
    let internal ← leaves nSuper (nSuper + 1) 1
    let l ← leafValuesD r blocks nSuper 0
    let t ← fillLoop (internal + nSuper - 1) (List.replicate internal (int32 r.bv.size) ++ l)
    .ok ⟨r, internal, blocks, t⟩) := by
  have hc : ceilDiv r.bv.bits.length 4 = (r.bv.bits.length + 3) / 4 := by unfold ceilDiv; omega
  unfold buildTreeD
  rw [buildBlocksD_eq h.wf h0, M.ok_bind]
  dsimp only
  rw [hc, check_bind (by rw [buildBlocks_spec h.wf h0]; simp)]

theorem buildTreeD_eq {r : RS} (h : r.Rep) (hsz : r.bv.size < 2 ^ 31) (h0 : 0 < r.bv.size)
    (hp : ∀ i, i ≤ r.bv.size → 0 ≤ exW r.bv.bits i) : buildTreeD r = buildTree r := by
  have hlen := h.wf
  unfold wordsFor at hlen
  have hc : ceilDiv r.bv.bits.length 4 = (r.bv.bits.length + 3) / 4 := by unfold ceilDiv; omega
  rw [buildTreeD_form h h0]
  unfold buildTree
  dsimp only
  rw [hc, leafValuesD_eq h hsz (buildBlocks_spec h.wf h0) _ 0 (by omega)]
  intro j j1 j2
  unfold sm
  obtain ⟨q, q1, q2, q3⟩ := minOver_mem (exW r.bv.bits) (8192 * j) (min (8192 * (j + 1)) r.bv.size - 8192 * j)
  have := hp q (by omega)
  omega

theorem buildTreeD_abort {r : RS} (h : r.Rep) (hsz : r.bv.size < 2 ^ 31) (h0 : 0 < r.bv.size) {i : Nat} (hi : i ≤ r.bv.size)
    (hp : exW r.bv.bits i < 0) : buildTreeD r = .error .aborted := by
  have hlen := h.wf
  unfold wordsFor at hlen
  rw [buildTreeD_form h h0]
  dsimp only
  obtain ⟨e, e1, e2⟩ := leaves_spec (((r.bv.bits.length + 3) / 4 + 31) / 32) (((r.bv.bits.length + 3) / 4 + 31) / 32 + 1) 1 (by omega)
    (by omega) (by omega) ⟨0, rfl⟩
  rw [e1, M.ok_bind, leafValuesD_abort h hsz (buildBlocks_spec h.wf h0) _ 0 (by omega)]
  · rfl
  · have key : ∀ j, 8192 * j ≤ i → i ≤ min (8192 * (j + 1)) r.bv.size → sm r.bv.bits r.bv.size j < 0 := by
      intro j j1 j2
      have := minOver_le (exW r.bv.bits) (8192 * j) (min (8192 * (j + 1)) r.bv.size - 8192 * j) i j1 (by omega)
      unfold sm
      omega
    by_cases hi2 : i = r.bv.size
    · refine ⟨(i - 1) / 8192, by omega, by omega, key _ (by omega) (by omega)⟩
    · refine ⟨i / 8192, by omega, by omega, key _ (by omega) (by omega)⟩

end BP
end AC
