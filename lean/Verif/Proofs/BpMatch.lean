import Verif.Proofs.BpWord
import Verif.Proofs.BpSearch
/-!
# Matching parentheses
-/
namespace AC.BP
open Util

theorem First.unique {f : Nat → Bool} {e : Int} {N n m : Nat} (h : First f e N n) (h1 : e + exc f m ≤ 0) (h2 : ∀ k, k < m → 0 < e + exc f k) : n = m := by
  rcases Nat.lt_trichotomy n m with h3 | h3 | h3
  · have := h2 n h3; have := h.hit; omega
  · exact h3
  · have := h.before m h3; omega

theorem bytesSum_counts (x : W) : (bytesSum (byteCounts x)).toNat = cnt x.getLsbD 64 := by
  rw [show bytesSum (byteCounts x) = Util.popcount x from rfl, Util.popcount_spec, W.popcount_eq]

theorem wordExcess_eq (x : W) : wordExcess x = exc x.getLsbD 64 := by
  unfold wordExcess
  rw [bytesSum_counts]
  have := cnt_le x.getLsbD 64
  apply int32_id <;> omega

/-- the excess going backwards -/
theorem exc_back (g : Nat → Bool) (p : Nat) : ∀ n, n ≤ p → exc (fun j => !g (p - 1 - j)) n = exc g (p - n) - exc g p := by
  intro n
  induction n with
  | zero => intro _; rw [exc_zero, Nat.sub_zero]; omega
  | succ n ih =>
      intro hn
      rw [exc_succ, ih (by omega)]
      have h := exc_succ g (p - (n + 1))
      rw [show p - (n + 1) + 1 = p - n by omega] at h
      rw [h, show p - 1 - n = p - (n + 1) by omega]
      cases g (p - (n + 1)) <;> simp <;> omega

/-! ## In a block -/

/-- forwards in a word of the vector -/
theorem word_close {ws : List W} {w : Nat} (hw : w < ws.length) {t : Int} (he : t < exW ws (64 * w)) :
    (∃ q, 64 * w < q ∧ q ≤ 64 * (w + 1) ∧ exW ws q ≤ t ∧ (∀ j, 64 * w ≤ j → j < q → t < exW ws j) ∧
      ifSmall closeInWord ws[w] (exW ws (64 * w) - t) = .ok (some (q - 1 - 64 * w))) ∨
    ((∀ j, 64 * w ≤ j → j ≤ 64 * (w + 1) → t < exW ws j) ∧ ifSmall closeInWord ws[w] (exW ws (64 * w) - t) = .ok none) := by
  have hW := fun i hi => exW_word ws w hw i hi
  unfold ifSmall
  by_cases h64 : exW ws (64 * w) - t ≤ 64
  · rw [if_pos h64]
    rcases closeInWord_spec ws[w] (e := exW ws (64 * w) - t) (by omega) h64 with ⟨n, n1, n2⟩ | ⟨n1, n2⟩
    · left
      have hn := n1.le
      obtain ⟨z1, z2⟩ := n1.zero (by omega)
      refine ⟨64 * w + n, by omega, by omega, ?_, ?_, ?_⟩
      · have := hW n hn; omega
      · intro j j1 j2
        have := hW (j - 64 * w) (by omega)
        have := n1.before (j - 64 * w) (by omega)
        rw [show 64 * w + (j - 64 * w) = j by omega] at *
        omega
      · rw [n2]; congr 2; omega
    · right
      refine ⟨?_, n2⟩
      intro j j1 j2
      have := hW (j - 64 * w) (by omega)
      have := n1 (j - 64 * w) (by omega)
      rw [show 64 * w + (j - 64 * w) = j by omega] at *
      omega
  · rw [if_neg h64]
    right
    refine ⟨?_, rfl⟩
    intro j j1 j2
    have := exW_diff ws (64 * w) (j - 64 * w)
    rw [show 64 * w + (j - 64 * w) = j by omega] at this
    omega

/-- backwards in a word of the vector -/
theorem word_open {ws : List W} {w : Nat} (hw : w < ws.length) {t : Int} (he : t < exW ws (64 * (w + 1))) :
    (∃ q, 64 * w ≤ q ∧ q < 64 * (w + 1) ∧ exW ws q ≤ t ∧ (∀ j, q < j → j ≤ 64 * (w + 1) → t < exW ws j) ∧
      ifSmall openInWord ws[w] (exW ws (64 * (w + 1)) - t) = .ok (some (q - 64 * w))) ∨
    ((∀ j, 64 * w ≤ j → j ≤ 64 * (w + 1) → t < exW ws j) ∧ ifSmall openInWord ws[w] (exW ws (64 * (w + 1)) - t) = .ok none) := by
  have hW : ∀ n, n ≤ 64 → exc (fun j => !ws[w].getLsbD (63 - j)) n = exW ws (64 * w + (64 - n)) - exW ws (64 * (w + 1)) := by
    intro n hn
    have h1 := exc_back ws[w].getLsbD 64 n hn
    have h2 := exW_word ws w hw (64 - n) (by omega)
    have h3 := exW_word ws w hw 64 (by omega)
    have h1' : exc (fun j => !ws[w].getLsbD (63 - j)) n = exc ws[w].getLsbD (64 - n) - exc ws[w].getLsbD 64 := h1
    rw [h1', h2, show 64 * (w + 1) = 64 * w + 64 by omega, h3]
    omega
  unfold ifSmall
  by_cases h64 : exW ws (64 * (w + 1)) - t ≤ 64
  · rw [if_pos h64]
    rcases openInWord_spec ws[w] (e := exW ws (64 * (w + 1)) - t) (by omega) h64 with ⟨n, n1, n2⟩ | ⟨n1, n2⟩
    · left
      have hn := n1.le
      obtain ⟨z1, z2⟩ := n1.zero (by omega)
      refine ⟨64 * w + (64 - n), by omega, by omega, ?_, ?_, ?_⟩
      · have := hW n hn; omega
      · intro j j1 j2
        have h3 := hW (64 * (w + 1) - j) (by omega)
        have h4 := n1.before (64 * (w + 1) - j) (by omega)
        rw [h3, show 64 * w + (64 - (64 * (w + 1) - j)) = j by omega] at h4
        omega
      · rw [n2]; congr 2; omega
    · right
      refine ⟨?_, n2⟩
      intro j j1 j2
      have h3 := hW (64 * (w + 1) - j) (by omega)
      have h4 := n1 (64 * (w + 1) - j) (by omega)
      rw [h3, show 64 * w + (64 - (64 * (w + 1) - j)) = j by omega] at h4
      omega
  · rw [if_neg h64]
    right
    refine ⟨?_, rfl⟩
    intro j j1 j2
    have := exW_diff ws j (64 * (w + 1) - j)
    rw [show j + (64 * (w + 1) - j) = 64 * (w + 1) by omega] at this
    omega

theorem exW_next {ws : List W} {w : Nat} (hw : w < ws.length) : exW ws (64 * (w + 1)) = exW ws (64 * w) + wordExcess ws[w] := by
  rw [wordExcess_eq]
  exact exW_word ws w hw 64 (by omega)

theorem closeLoop_some {ws : List W} {t : Int} {q : Nat} (hq : q ≤ 64 * ws.length) (hqt : exW ws q ≤ t) : ∀ n w, 64 * w < q → q ≤ 64 * (w + n) →
    (∀ j, 64 * w ≤ j → j < q → t < exW ws j) → closeLoop ws n w (exW ws (64 * w) - t) = .ok (some (q - 1)) := by
  intro n
  induction n with
  | zero => intro w h1 h2; omega
  | succ n ih =>
      intro w h1 h2 hb
      have hw : w < ws.length := by omega
      unfold closeLoop
      rw [rd_ok hw, M.ok_bind]
      rcases word_close hw (hb (64 * w) (Nat.le_refl _) h1) with ⟨p, p1, p2, p3, p4, p5⟩ | ⟨p1, p2⟩
      · rw [p5, M.ok_bind]
        have hpq : p = q := by
          rcases Nat.lt_trichotomy p q with h | h | h
          · have := hb p (by omega) h; omega
          · exact h
          · have := p4 q (by omega) h; omega
        subst hpq
        show Except.ok _ = _
        congr 2; omega
      · rw [p2, M.ok_bind]
        dsimp only
        have hq2 : 64 * (w + 1) < q := by
          apply Nat.lt_of_not_le
          intro hle
          have := p1 q (by omega) hle
          omega
        rw [show exW ws (64 * w) - t + wordExcess ws[w] = exW ws (64 * (w + 1)) - t by rw [exW_next hw]; omega]
        exact ih (w + 1) hq2 (by omega) (fun j j1 j2 => hb j (by omega) j2)

theorem closeLoop_none {ws : List W} {t : Int} : ∀ n w, w + n ≤ ws.length → (∀ j, 64 * w ≤ j → j ≤ 64 * (w + n) → t < exW ws j) →
    closeLoop ws n w (exW ws (64 * w) - t) = .ok none := by
  intro n
  induction n with
  | zero => intro w _ _; rfl
  | succ n ih =>
      intro w h1 hb
      have hw : w < ws.length := by omega
      unfold closeLoop
      rw [rd_ok hw, M.ok_bind]
      rcases word_close hw (hb (64 * w) (Nat.le_refl _) (by omega)) with ⟨p, p1, p2, p3, p4, p5⟩ | ⟨p1, p2⟩
      · have := hb p (by omega) (by omega); omega
      · rw [p2, M.ok_bind]
        dsimp only
        rw [show exW ws (64 * w) - t + wordExcess ws[w] = exW ws (64 * (w + 1)) - t by rw [exW_next hw]; omega]
        exact ih (w + 1) (by omega) (fun j j1 j2 => hb j (by omega) (by omega))

theorem int32_small {n : Nat} (h : n ≤ 4) : int32 ((n * 64 : Nat) : Int) = ((n * 64 : Nat) : Int) := by
  apply int32_id <;> omega

theorem closeInBlock_some {ws : List W} {t : Int} {off start q : Nat} (hs : start ≤ 4) (hq : q ≤ 64 * ws.length) (hqt : exW ws q ≤ t)
    (h1 : 64 * (off + start) < q) (h2 : q ≤ 64 * (off + 4)) (hb : ∀ j, 64 * (off + start) ≤ j → j < q → t < exW ws j) :
    closeInBlock ws off (exW ws (64 * (off + start)) - t) start = .ok (some (q - 1)) := by
  unfold closeInBlock
  have := exW_diff ws (64 * (off + start)) (q - 64 * (off + start))
  rw [show 64 * (off + start) + (q - 64 * (off + start)) = q by omega] at this
  rw [int32_small (by omega), if_neg (by omega)]
  exact closeLoop_some hq hqt (4 - start) (off + start) h1 (by omega) hb

theorem closeInBlock_none {ws : List W} {t : Int} {off start : Nat} (hs : start ≤ 4) (hl : off + 4 ≤ ws.length)
    (hb : ∀ j, 64 * (off + start) ≤ j → j ≤ 64 * (off + 4) → t < exW ws j) :
    closeInBlock ws off (exW ws (64 * (off + start)) - t) start = .ok none := by
  unfold closeInBlock
  rw [int32_small (by omega)]
  split
  · rfl
  · exact closeLoop_none (4 - start) (off + start) (by omega) (fun j j1 j2 => hb j j1 (by omega))

theorem openLoop_some {ws : List W} {t : Int} {off q : Nat} (hqt : exW ws q ≤ t) (ho : 64 * off ≤ q) : ∀ n, off + n ≤ ws.length → q < 64 * (off + n) →
    (∀ j, q < j → j ≤ 64 * (off + n) → t < exW ws j) → openLoop ws off n (exW ws (64 * (off + n)) - t) = .ok (some q) := by
  intro n
  induction n with
  | zero => intro _ h1; omega
  | succ n ih =>
      intro hl h1 hb
      have hw : off + n < ws.length := by omega
      unfold openLoop
      rw [rd_ok hw, M.ok_bind, ← Nat.add_assoc]
      rcases word_open hw (hb (64 * (off + n + 1)) h1 (Nat.le_refl _)) with ⟨p, p1, p2, p3, p4, p5⟩ | ⟨p1, p2⟩
      · rw [p5, M.ok_bind]
        have hpq : p = q := by
          rcases Nat.lt_trichotomy p q with h | h | h
          · have := p4 q h (by omega); omega
          · exact h
          · have := hb p h (by omega); omega
        subst hpq
        show Except.ok _ = _
        congr 2; omega
      · rw [p2, M.ok_bind]
        dsimp only
        have hq2 : q < 64 * (off + n) := by
          apply Nat.lt_of_not_le
          intro hle
          have := p1 q hle (by omega)
          omega
        rw [show exW ws (64 * (off + n + 1)) - t - wordExcess ws[off + n] = exW ws (64 * (off + n)) - t by rw [exW_next hw]; omega]
        exact ih (by omega) hq2 (fun j j1 j2 => hb j j1 (by omega))

theorem openLoop_none {ws : List W} {t : Int} {off : Nat} : ∀ n, off + n ≤ ws.length →
    (∀ j, 64 * off ≤ j → j ≤ 64 * (off + n) → t < exW ws j) → openLoop ws off n (exW ws (64 * (off + n)) - t) = .ok none := by
  intro n
  induction n with
  | zero => intro _ _; rfl
  | succ n ih =>
      intro hl hb
      have hw : off + n < ws.length := by omega
      unfold openLoop
      rw [rd_ok hw, M.ok_bind, ← Nat.add_assoc]
      rcases word_open hw (hb (64 * (off + n + 1)) (by omega) (Nat.le_refl _)) with ⟨p, p1, p2, p3, p4, p5⟩ | ⟨p1, p2⟩
      · have := hb p (by omega) (by omega); omega
      · rw [p2, M.ok_bind]
        dsimp only
        rw [show exW ws (64 * (off + n + 1)) - t - wordExcess ws[off + n] = exW ws (64 * (off + n)) - t by rw [exW_next hw]; omega]
        exact ih (by omega) (fun j j1 j2 => hb j j1 (by omega))

theorem openInBlock_some {ws : List W} {t : Int} {off start q : Nat} (hs : start ≤ 4) (hl : off + start ≤ ws.length) (hqt : exW ws q ≤ t)
    (h1 : 64 * off ≤ q) (h2 : q < 64 * (off + start)) (hb : ∀ j, q < j → j ≤ 64 * (off + start) → t < exW ws j) :
    openInBlock ws off (exW ws (64 * (off + start)) - t) start = .ok (some q) := by
  unfold openInBlock
  have := exW_diff ws q (64 * (off + start) - q)
  rw [show q + (64 * (off + start) - q) = 64 * (off + start) by omega] at this
  rw [int32_small hs, if_neg (by omega)]
  exact openLoop_some hqt h1 start hl h2 hb

theorem openInBlock_none {ws : List W} {t : Int} {off start : Nat} (hs : start ≤ 4) (hl : off + start ≤ ws.length)
    (hb : ∀ j, 64 * off ≤ j → j ≤ 64 * (off + start) → t < exW ws j) :
    openInBlock ws off (exW ws (64 * (off + start)) - t) start = .ok none := by
  unfold openInBlock
  rw [int32_small hs]
  split
  · rfl
  · exact openLoop_none start hl hb

/-! ## The padded words -/

theorem padOpen_bit (x : W) {s : Nat} (hs : s < 64) (j : Nat) (hj : j < 64) : (padOpen x s).getLsbD j = if j < 64 - s then x.getLsbD (s + j) else true := by
  unfold padOpen
  rw [BitVec.getLsbD_or, BitVec.getLsbD_ushiftRight]
  by_cases h0 : s = 0
  · subst h0
    simp [hj]
  · rw [if_neg h0, BitVec.getLsbD_shiftLeft]
    unfold W.all
    by_cases h1 : j < 64 - s
    · simp [h1]
    · have : x.getLsbD (s + j) = false := BitVec.getLsbD_of_ge _ _ (by omega)
      rw [if_neg h1, BitVec.getLsbD_allOnes]
      simp [hj, h1]
      omega

theorem padClose_bit (x : W) {n : Nat} (hn : n < 64) (j : Nat) (hj : j < 64) :
    (padClose x n).getLsbD j = if j < 64 - n then false else x.getLsbD (j - (64 - n)) := by
  unfold padClose
  by_cases h0 : n = 0
  · subst h0
    simp [hj]
  · rw [if_neg h0, BitVec.getLsbD_shiftLeft]
    by_cases h1 : j < 64 - n <;> simp [h1, hj]

theorem exc_true {f : Nat → Bool} {a n : Nat} (h : ∀ j, a ≤ j → j < a + n → f j = true) : exc f (a + n) = exc f a + n := by
  rw [exc_add]
  unfold exc
  rw [cnt_all (fun i hi => h (a + i) (by omega) (by omega))]
  omega

/-- the excess within the padded word at `pos + 1` -/
theorem padOpen_exc {ws : List W} {a : Nat} (ha : a / 64 < ws.length) {n : Nat} (hn : n ≤ 64 - a % 64) :
    exc (padOpen ws[a / 64] (a % 64)).getLsbD n = exW ws (a + n) - exW ws a := by
  unfold exW
  rw [exc_add, show ∀ x y : Int, x + y - x = y by omega]
  apply exc_congr
  intro j hj
  rw [padOpen_bit _ (Nat.mod_lt _ (by omega)) j (by omega), if_pos (by omega)]
  have := bitAt_word ws (a / 64) (a % 64 + j) ha (by omega)
  rw [this]
  congr 1; omega

theorem padOpen_rest {ws : List W} {a : Nat} (ha : a / 64 < ws.length) {n : Nat} (hn : n ≤ 64) (hn2 : 64 - a % 64 ≤ n) :
    exc (padOpen ws[a / 64] (a % 64)).getLsbD n = exW ws (64 * (a / 64 + 1)) - exW ws a + (n - (64 - a % 64) : Nat) := by
  have h := exc_true (f := (padOpen ws[a / 64] (a % 64)).getLsbD) (a := 64 - a % 64) (n := n - (64 - a % 64)) (by
    intro j j1 j2
    rw [padOpen_bit _ (Nat.mod_lt _ (by omega)) j (by omega), if_neg (by omega)])
  rw [show 64 - a % 64 + (n - (64 - a % 64)) = n by omega, padOpen_exc ha (Nat.le_refl _), show a + (64 - a % 64) = 64 * (a / 64 + 1) by omega] at h
  exact h

/-- … and before `pos`, backwards -/
theorem padClose_exc {ws : List W} {a : Nat} (ha : a / 64 < ws.length) {n : Nat} (hn : n ≤ a % 64) :
    exc (fun j => !(padClose ws[a / 64] (a % 64)).getLsbD (63 - j)) n = exW ws (a - n) - exW ws a := by
  unfold exW
  rw [← exc_back (bitAt ws) a n (by omega)]
  apply exc_congr
  intro j hj
  rw [padClose_bit _ (Nat.mod_lt _ (by omega)) (63 - j) (by omega), if_neg (by omega)]
  have := bitAt_word ws (a / 64) (63 - j - (64 - a % 64)) ha (by omega)
  rw [this]
  congr 2; omega

theorem padClose_rest {ws : List W} {a : Nat} (ha : a / 64 < ws.length) {n : Nat} (hn : n ≤ 64) (hn2 : a % 64 ≤ n) :
    exc (fun j => !(padClose ws[a / 64] (a % 64)).getLsbD (63 - j)) n = exW ws (64 * (a / 64)) - exW ws a + (n - a % 64 : Nat) := by
  have h := exc_true (f := fun j => !(padClose ws[a / 64] (a % 64)).getLsbD (63 - j)) (a := a % 64) (n := n - a % 64) (by
    intro j j1 j2
    rw [padClose_bit _ (Nat.mod_lt _ (by omega)) (63 - j) (by omega), if_pos (by omega)]
    rfl)
  rw [show a % 64 + (n - a % 64) = n by omega, padClose_exc ha (Nat.le_refl _), show a - a % 64 = 64 * (a / 64) by omega] at h
  exact h

variable {b : BP}

theorem excess_eq (H : b.Rep) {p : Nat} (hp : p ≤ b.rs.bv.size) : b.excess p = .ok (exW b.rs.bv.bits p) := by
  have hsm := H.small
  unfold excess
  rw [RS.rank_spec H.rs hp, M.ok_bind]
  unfold ones
  have := cnt_le (bitAt b.rs.bv.bits) p
  rw [int32_id (by omega) (by omega)]
  rfl

/-- `find_close(pos)`: `q` is the first position after `pos` where the excess is back to that of `pos` -/
theorem findClose_spec (H : b.Rep) {pos q : Nat} (h1 : pos + 1 < q) (h2 : q ≤ b.rs.bv.size)
    (hopen : exW b.rs.bv.bits (pos + 1) = exW b.rs.bv.bits pos + 1) (hq : exW b.rs.bv.bits q ≤ exW b.rs.bv.bits pos)
    (hb : ∀ j, pos < j → j < q → exW b.rs.bv.bits pos < exW b.rs.bv.bits j) : b.findClose pos = .ok (q - 1) := by
  have hlen := H.rs.wf
  have hsm := H.small
  unfold wordsFor at hlen
  have hw : (pos + 1) / 64 < b.rs.bv.bits.length := by omega
  have hex := excess_eq H (p := pos) (by omega)
  have htb := exW_diff b.rs.bv.bits 0 pos
  rw [Nat.zero_add, exW_zero] at htb
  have hblock := fun k hk => blockExcess_spec H.rs (k := k) hk H.small
  have htree := fun c p => searchTree_up H (t := exW b.rs.bv.bits pos) (by omega) (c := c) (p := p)
  have hbm := fun c hc => bme_le_iff (b := b) (c := c) (t := exW b.rs.bv.bits pos) hc
  have hbl : b.blocks = (b.rs.bv.bits.length + 3) / 4 := rfl
  unfold findClose
  dsimp only
  generalize hws : b.rs.bv.bits = ws at *
  rw [rd_ok hw, M.ok_bind]
  have hp1 := fun n hn => padOpen_exc hw (n := n) hn
  have hp2 := fun n hn hn2 => padOpen_rest hw (n := n) hn hn2
  have hcnt : ((bytesSum (byteCounts (padOpen ws[(pos + 1) / 64] ((pos + 1) % 64)))).toNat : Int) =
      cnt (padOpen ws[(pos + 1) / 64] ((pos + 1) % 64)).getLsbD 64 := by rw [bytesSum_counts]
  have hspec := closeInWord_spec (padOpen ws[(pos + 1) / 64] ((pos + 1) % 64)) (e := 1) (by omega) (by omega)
  generalize padOpen ws[(pos + 1) / 64] ((pos + 1) % 64) = pw at hp1 hp2 hcnt hspec
  by_cases hin : q ≤ 64 * ((pos + 1) / 64 + 1)
  · rcases hspec with ⟨n, n1, n2⟩ | ⟨n1, n2⟩
    · have e1 := n1.unique (m := q - (pos + 1)) (by
        rw [hp1 _ (by omega), show pos + 1 + (q - (pos + 1)) = q by omega]; omega) (by
        intro k hk
        rw [hp1 _ (by omega)]
        have := hb (pos + 1 + k) (by omega) (by omega)
        omega)
      rw [n2, M.ok_bind]
      show Except.ok _ = _
      congr 1; omega
    · have := n1 (q - (pos + 1)) (by omega)
      rw [hp1 _ (by omega), show pos + 1 + (q - (pos + 1)) = q by omega] at this
      omega
  · have hnone : closeInWord pw (byteCounts pw) 1 = .ok none := by
      rcases hspec with ⟨n, n1, n2⟩ | ⟨n1, n2⟩
      · have a1 := n1.hit
        have a2 := n1.le
        by_cases hn : n ≤ 64 - (pos + 1) % 64
        · rw [hp1 n hn] at a1
          have := hb (pos + 1 + n) (by omega) (by omega)
          omega
        · rw [hp2 n a2 (by omega)] at a1
          have := hb (64 * ((pos + 1) / 64 + 1)) (by omega) (by omega)
          omega
      · exact n2
    rw [hnone, M.ok_bind]
    dsimp only
    have hloc : int32 (2 * (((bytesSum (byteCounts pw)).toNat : Int) - ((pos + 1) % 64 : Nat)) - (64 - ((pos + 1) % 64 : Nat))) + 1 =
        exW ws (64 * ((pos + 1) / 64 / 4 * 4 + ((pos + 1) / 64 % 4 + 1))) - exW ws pos := by
      have h64 := hp2 64 (Nat.le_refl _) (by omega)
      unfold exc at h64
      have hc := cnt_le pw.getLsbD 64
      rw [hcnt, show (pos + 1) / 64 / 4 * 4 + ((pos + 1) / 64 % 4 + 1) = (pos + 1) / 64 + 1 by omega, int32_id (by omega) (by omega)]
      omega
    rw [hloc]
    by_cases hin2 : q ≤ 64 * ((pos + 1) / 64 / 4 * 4 + 4)
    · rw [closeInBlock_some (q := q) (by omega) (by omega) hq (by omega) hin2 (fun j j1 j2 => hb j (by omega) j2), M.ok_bind]
    · rw [closeInBlock_none (by omega) (by omega) (fun j j1 j2 => hb j (by omega) (by omega)), M.ok_bind]
      dsimp only
      rw [hex, M.ok_bind, htree _ ((q - 1) / 256) (by omega) (by omega) ((hbm _ (by omega)).mpr ⟨q, by omega, by omega, by omega, hq⟩) (by
        intro j j1 j2
        apply Int.not_le.mp
        intro hle
        obtain ⟨x, x1, x2, x3, x4⟩ := (hbm j (by omega)).mp hle
        have := hb x (by omega) (by omega)
        omega), M.ok_bind, hblock _ (by omega), M.ok_bind]
      have hlast := closeInBlock_some (ws := ws) (t := exW ws pos) (off := (q - 1) / 256 * 4) (start := 0) (q := q) (by omega) (by omega) hq
        (by omega) (by omega) (fun j j1 j2 => hb j (by omega) j2)
      rw [show 64 * ((q - 1) / 256 * 4 + 0) = 256 * ((q - 1) / 256) by omega] at hlast
      rw [hlast, M.ok_bind]
      rfl

/-- `find_open(pos)`: `q` is the last position before `pos` where the excess is less than at `pos` -/
theorem findOpen_spec (H : b.Rep) {pos q : Nat} (h1 : q < pos) (h2 : pos < b.rs.bv.size)
    (hq : exW b.rs.bv.bits q < exW b.rs.bv.bits pos)
    (hb : ∀ j, q < j → j ≤ pos → exW b.rs.bv.bits pos ≤ exW b.rs.bv.bits j) : b.findOpen pos = .ok q := by
  have hlen := H.rs.wf
  have hsm := H.small
  unfold wordsFor at hlen
  have hw : pos / 64 < b.rs.bv.bits.length := by omega
  have hex := excess_eq H (p := pos) (by omega)
  have htb := exW_diff b.rs.bv.bits 0 pos
  rw [Nat.zero_add, exW_zero] at htb
  have hblock := fun k hk => blockExcess_spec H.rs (k := k) hk H.small
  have htree := fun c p => searchTree_down H (t := exW b.rs.bv.bits pos - 1) (by omega) (c := c) (p := p)
  have hbm := fun c hc => bme_le_iff (b := b) (c := c) (t := exW b.rs.bv.bits pos - 1) hc
  have hbl : b.blocks = (b.rs.bv.bits.length + 3) / 4 := rfl
  unfold findOpen
  dsimp only
  generalize hws : b.rs.bv.bits = ws at *
  rw [rd_ok hw, M.ok_bind]
  have hp1 := fun n hn => padClose_exc hw (n := n) hn
  have hp2 := fun n hn hn2 => padClose_rest hw (n := n) hn hn2
  have hcnt : ((bytesSum (byteCounts (padClose ws[pos / 64] (pos % 64)))).toNat : Int) =
      cnt (padClose ws[pos / 64] (pos % 64)).getLsbD 64 := by rw [bytesSum_counts]
  have hspec := openInWord_spec (padClose ws[pos / 64] (pos % 64)) (e := 1) (by omega) (by omega)
  generalize padClose ws[pos / 64] (pos % 64) = pw at hp1 hp2 hcnt hspec
  by_cases hin : 64 * (pos / 64) ≤ q
  · rcases hspec with ⟨n, n1, n2⟩ | ⟨n1, n2⟩
    · have e1 := n1.unique (m := pos - q) (by
        rw [hp1 _ (by omega), show pos - (pos - q) = q by omega]; omega) (by
        intro k hk
        rw [hp1 _ (by omega)]
        have := hb (pos - k) (by omega) (by omega)
        omega)
      rw [n2, M.ok_bind]
      show Except.ok _ = _
      congr 1; omega
    · have := n1 (pos - q) (by omega)
      rw [hp1 _ (by omega), show pos - (pos - q) = q by omega] at this
      omega
  · have hnone : openInWord pw (byteCounts pw) 1 = .ok none := by
      rcases hspec with ⟨n, n1, n2⟩ | ⟨n1, n2⟩
      · have a1 := n1.hit
        have a2 := n1.le
        by_cases hn : n ≤ pos % 64
        · rw [hp1 n hn] at a1
          have := hb (pos - n) (by omega) (by omega)
          omega
        · rw [hp2 n a2 (by omega)] at a1
          have := hb (64 * (pos / 64)) (by omega) (by omega)
          omega
      · exact n2
    rw [hnone, M.ok_bind]
    dsimp only
    have hloc : -int32 (2 * ((bytesSum (byteCounts pw)).toNat : Int) - (pos % 64 : Nat)) + 1 =
        exW ws (64 * (pos / 64 / 4 * 4 + pos / 64 % 4)) - (exW ws pos - 1) := by
      have h64 := hp2 64 (Nat.le_refl _) (by omega)
      have h63 := exc_back pw.getLsbD 64 64 (Nat.le_refl _)
      rw [show (fun j => !pw.getLsbD (64 - 1 - j)) = (fun j => !pw.getLsbD (63 - j)) from rfl, h64, Nat.sub_self, exc_zero] at h63
      unfold exc at h63
      have hc := cnt_le pw.getLsbD 64
      rw [hcnt, show pos / 64 / 4 * 4 + pos / 64 % 4 = pos / 64 by omega, int32_id (by omega) (by omega)]
      omega
    rw [hloc]
    by_cases hin2 : 64 * (pos / 64 / 4 * 4) ≤ q
    · rw [openInBlock_some (q := q) (by omega) (by omega) (by omega) hin2 (by omega) (fun j j1 j2 => by have := hb j j1 (by omega); omega), M.ok_bind]
    · rw [openInBlock_none (by omega) (by omega) (fun j j1 j2 => by have := hb j (by omega) (by omega); omega), M.ok_bind]
      dsimp only
      rw [hex, M.ok_bind, if_neg (by omega), htree _ (q / 256) (by omega) (by omega) ((hbm _ (by omega)).mpr ⟨q, by omega, by omega, by omega, by omega⟩) (by
        intro j j1 j2
        apply Int.not_le.mp
        intro hle
        obtain ⟨x, x1, x2, x3, x4⟩ := (hbm j (by omega)).mp hle
        have := hb x (by omega) (by omega)
        omega), M.ok_bind, hblock _ (by omega), M.ok_bind]
      have hlast := openInBlock_some (ws := ws) (t := exW ws pos - 1) (off := q / 256 * 4) (start := 4) (q := q) (by omega) (by omega) (by omega)
        (by omega) (by omega) (fun j j1 j2 => by have := hb j j1 (by omega); omega)
      rw [show 64 * (q / 256 * 4 + 4) = 256 * (q / 256 + 1) by omega] at hlast
      rw [hlast, M.ok_bind]
      rfl

end AC.BP
