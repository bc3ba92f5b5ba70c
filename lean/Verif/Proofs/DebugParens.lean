import Verif.Model.DebugParens
import Verif.Proofs.DebugRmqSearch
import Verif.Proofs.BpMatch
/-!
# Matching parentheses: the assertions hold
-/
namespace AC.BP
open Util

theorem closeInWordD_spec (w : W) {e : Int} (h1 : 1 ≤ e) (h2 : e ≤ 64) :
    (∃ n, First w.getLsbD e 64 n ∧ closeInWordD w (byteCounts w) e = .ok (some (n - 1))) ∨
    ((∀ k, k ≤ 64 → 0 < e + exc w.getLsbD k) ∧ closeInWordD w (byteCounts w) e = .ok none) := by
  have hT : ∀ i n, n ≤ 8 → exc (byteOf w i).testBit n = exc (fun j => w.getLsbD (8 * i + j)) n := fun i n hn =>
    exc_congr (fun j hj => Exc.byte_testBit w i j (by omega))
  have hmin : ∀ i, (ExcessTables.fwd (byteOf w i)).min ≤ 8 := by
    intro i
    have h := (ExcessTables.fwd_spec (byteOf w i)).2
    have := h.val
    have := h.le_hi
    have := neg_le_exc (byteOf w i).testBit (ExcessTables.fwd (byteOf w i)).idx
    omega
  have hcum := closeCum w e
  have hg := fun i hi => gather_byte (fun i => (ExcessTables.fwd (byteOf w i)).min) (fun i => by have := hmin i; omega) i hi
  unfold closeInWordD
  rw [check_bind (by omega)]
  generalize sumsUp (byteCounts w) e = cum at hcum
  generalize gather (fun i => (ExcessTables.fwd (byteOf w i)).min) = mins at hg
  rcases scan h1 h2 hcum hg (fun i _ => hmin i) (fun i _ n hn => by
    rw [← hT i n hn]; exact (ExcessTables.fwd_spec (byteOf w i)).2.le n (by omega) hn) with ⟨i, hi, hl, a1, a2, a3, a4⟩ | ⟨hl, a1⟩
  · left
    rw [hl]
    simp only [pickCloseD]
    have hb : ((w >>> (8 * i)) &&& 0xFF).toNat = byteOf w i := by unfold byteOf; rw [Nat.mul_comm]
    rw [hb, and_byte_eq]
    obtain ⟨c, hc⟩ : ∃ c : Fin 256, c.val = byteOf w i := ⟨⟨byteOf w i, and_byte _ _⟩, rfl⟩
    obtain ⟨x, hx⟩ : ∃ x : Fin 9, x.val = cum.toNat / 256 ^ i % 256 := ⟨⟨cum.toNat / 256 ^ i % 256, by have := hmin i; omega⟩, rfl⟩
    obtain ⟨t1, t2, t3, t4, t5⟩ := fwdPos_all c x (by omega) (by rw [hc]; omega)
    rw [hc] at t1 t2 t3 t4 t5
    rw [hx] at t1 t2 t3 t4 t5
    generalize (ExcessTables.fwdPos (byteOf w i)).getD (cum.toNat / 256 ^ i % 256) 0 = p at t1 t2 t3 t4 t5
    rw [rd_of_getElem? t1, M.ok_bind, check_bind (show 0 < p by omega)]
    refine ⟨8 * i + p, ?_, rfl⟩
    apply scan_first hi a4 t3
    · rw [← hT i p t3, t4, a3]
    · intro k hk
      rw [← hT i k (by omega), ← a3]
      exact t5 ⟨k, by omega⟩ hk
  · right
    rw [hl]
    exact ⟨a1, rfl⟩

theorem openInWordD_spec (w : W) {e : Int} (h1 : 1 ≤ e) (h2 : e ≤ 64) :
    (∃ n, First (fun j => !w.getLsbD (63 - j)) e 64 n ∧ openInWordD w (byteCounts w) e = .ok (some (64 - n))) ∨
    ((∀ k, k ≤ 64 → 0 < e + exc (fun j => !w.getLsbD (63 - j)) k) ∧ openInWordD w (byteCounts w) e = .ok none) := by
  have hT : ∀ i n, i < 8 → n ≤ 8 → exc (fun j => !(((w >>> (64 - i * 8 - 8)) &&& 0xFF).toNat).testBit (7 - j)) n =
      exc (fun j => !w.getLsbD (63 - (8 * i + j))) n := fun i n hi hn =>
    exc_congr (fun j hj => by
      rw [show 64 - i * 8 - 8 = (7 - i) * 8 by omega, Exc.byte_testBit w (7 - i) (7 - j) (by omega)]
      congr 2; omega)
  have hall : ∀ i, let c := ((w >>> (64 - i * 8 - 8)) &&& 0xFF).toNat; ExcessTables.bwdMin c ≤ 8 ∧
      (∀ n : Fin 9, -(ExcessTables.bwdMin c : Int) ≤ exc (fun j => !c.testBit (7 - j)) n) ∧ ∀ e : Fin 9, 1 ≤ e.val → e.val ≤ ExcessTables.bwdMin c →
      (ExcessTables.bwdPos c)[e.val]? = some ((ExcessTables.bwdPos c).getD e 0) ∧
      1 ≤ (ExcessTables.bwdPos c).getD e 0 ∧ (ExcessTables.bwdPos c).getD e 0 ≤ 8 ∧
      exc (fun j => !c.testBit (7 - j)) ((ExcessTables.bwdPos c).getD e 0) = -(e.val : Int) ∧
      ∀ k : Fin 8, k.val < (ExcessTables.bwdPos c).getD e 0 → -(e.val : Int) < exc (fun j => !c.testBit (7 - j)) k :=
    fun i => bwd_all ⟨((w >>> (64 - i * 8 - 8)) &&& 0xFF).toNat, and_byte _ _⟩
  dsimp only at hall
  have hcum := openCum w e
  have hg := fun i hi => gather_byte (fun i => ExcessTables.bwdMin ((w >>> (64 - i * 8 - 8)) &&& 0xFF).toNat)
    (fun i => by have := (hall i).1; omega) i hi
  unfold openInWordD
  rw [check_bind (by omega)]
  generalize sumsDown (byteCounts w) e = cum at hcum
  generalize gather (fun i => ExcessTables.bwdMin ((w >>> (64 - i * 8 - 8)) &&& 0xFF).toNat) = maxs at hg
  rcases scan h1 h2 hcum hg (fun i _ => (hall i).1) (fun i hi n hn => by
    rw [← hT i n hi hn]; exact (hall i).2.1 ⟨n, by omega⟩) with ⟨i, hi, hl, a1, a2, a3, a4⟩ | ⟨hl, a1⟩
  · left
    rw [hl]
    simp only [pickOpenD]
    have hall2 := hall i
    rw [show i * 8 = 8 * i by omega] at hall2 a2
    have hT2 := hT i
    rw [show i * 8 = 8 * i by omega] at hT2
    rw [and_byte_eq cum]
    obtain ⟨x, hx⟩ : ∃ x : Fin 9, x.val = cum.toNat / 256 ^ i % 256 := ⟨⟨cum.toNat / 256 ^ i % 256, by have := hall2.1; omega⟩, rfl⟩
    obtain ⟨t1, t2, t3, t4, t5⟩ := hall2.2.2 x (by omega) (by omega)
    rw [hx] at t1 t2 t3 t4 t5
    generalize (ExcessTables.bwdPos ((w >>> (64 - 8 * i - 8)) &&& 0xFF).toNat).getD (cum.toNat / 256 ^ i % 256) 0 = p at t1 t2 t3 t4 t5
    rw [rd_of_getElem? t1, M.ok_bind, check_bind (show 0 < p by omega)]
    refine ⟨8 * i + p, ?_, rfl⟩
    apply scan_first hi a4 t3
    · rw [← hT2 p hi t3, t4, a3]
    · intro k hk
      rw [← hT2 k hi (by omega), ← a3]
      exact t5 ⟨k, by omega⟩ hk
  · right
    rw [hl]
    exact ⟨a1, rfl⟩

theorem closeInWordD_eq (w : W) {e : Int} (h1 : 0 < e) (h2 : e ≤ 64) : closeInWordD w (byteCounts w) e = closeInWord w (byteCounts w) e := by
  rcases closeInWordD_spec w (e := e) (by omega) h2 with ⟨n, n1, n2⟩ | ⟨n1, n2⟩
  · rcases closeInWord_spec w (e := e) (by omega) h2 with ⟨m, m1, m2⟩ | ⟨m1, m2⟩
    · have := n1.unique (m := m) m1.hit m1.before
      rw [n2, m2, this]
    · have := m1 n n1.le
      have := n1.hit
      omega
  · rcases closeInWord_spec w (e := e) (by omega) h2 with ⟨m, m1, m2⟩ | ⟨m1, m2⟩
    · have := n1 m m1.le
      have := m1.hit
      omega
    · rw [n2, m2]

theorem openInWordD_eq (w : W) {e : Int} (h1 : 0 < e) (h2 : e ≤ 64) : openInWordD w (byteCounts w) e = openInWord w (byteCounts w) e := by
  rcases openInWordD_spec w (e := e) (by omega) h2 with ⟨n, n1, n2⟩ | ⟨n1, n2⟩
  · rcases openInWord_spec w (e := e) (by omega) h2 with ⟨m, m1, m2⟩ | ⟨m1, m2⟩
    · have := n1.unique (m := m) m1.hit m1.before
      rw [n2, m2, this]
    · have := m1 n n1.le
      have := n1.hit
      omega
  · rcases openInWord_spec w (e := e) (by omega) h2 with ⟨m, m1, m2⟩ | ⟨m1, m2⟩
    · have := n1 m m1.le
      have := m1.hit
      omega
    · rw [n2, m2]

theorem ifSmall_close (x : W) {e : Int} (h : 0 < e) : ifSmall closeInWordD x e = ifSmall closeInWord x e := by
  unfold ifSmall
  split
  · exact closeInWordD_eq x h (by assumption)
  · rfl

theorem ifSmall_open (x : W) {e : Int} (h : 0 < e) : ifSmall openInWordD x e = ifSmall openInWord x e := by
  unfold ifSmall
  split
  · exact openInWordD_eq x h (by assumption)
  · rfl

theorem closeLoopD_eq {ws : List W} {t : Int} : ∀ n w, t < exW ws (64 * w) →
    closeLoopD ws n w (exW ws (64 * w) - t) = closeLoop ws n w (exW ws (64 * w) - t) := by
  intro n
  induction n with
  | zero => intro w _; rfl
  | succ n ih =>
      intro w he
      unfold closeLoopD closeLoop
      by_cases hw : w < ws.length
      · rw [rd_ok hw, M.ok_bind, M.ok_bind, check_bind (by omega), ifSmall_close _ (by omega)]
        rcases word_close hw he with ⟨p, _, _, _, _, p5⟩ | ⟨p1, p2⟩
        · rw [p5]; rfl
        · rw [p2, M.ok_bind, M.ok_bind]
          dsimp only
          rw [show exW ws (64 * w) - t + wordExcess ws[w] = exW ws (64 * (w + 1)) - t by rw [exW_next hw]; omega]
          exact ih (w + 1) (p1 _ (by omega) (Nat.le_refl _))
      · have : rd ws w = .error .oob := by
          unfold rd
          rw [List.getElem?_eq_none (by omega)]
        rw [this]; rfl

theorem openLoopD_eq {ws : List W} {t : Int} {off : Nat} : ∀ n, off + n ≤ ws.length → t < exW ws (64 * (off + n)) →
    openLoopD ws off n (exW ws (64 * (off + n)) - t) = openLoop ws off n (exW ws (64 * (off + n)) - t) := by
  intro n
  induction n with
  | zero => intro _ _; rfl
  | succ n ih =>
      intro hl he
      have hw : off + n < ws.length := by omega
      rw [← Nat.add_assoc] at he ⊢
      unfold openLoopD openLoop
      rw [check_bind (by omega), rd_ok hw, M.ok_bind, M.ok_bind, ifSmall_open _ (by omega)]
      rcases word_open hw he with ⟨p, _, _, _, _, p5⟩ | ⟨p1, p2⟩
      · rw [p5]; rfl
      · rw [p2, M.ok_bind, M.ok_bind]
        dsimp only
        rw [show exW ws (64 * (off + n + 1)) - t - wordExcess ws[off + n] = exW ws (64 * (off + n)) - t by rw [exW_next hw]; omega]
        exact ih (by omega) (p1 _ (Nat.le_refl _) (by omega))

theorem closeInBlockD_eq {ws : List W} {t : Int} {off start : Nat} (h : t < exW ws (64 * (off + start))) :
    closeInBlockD ws off (exW ws (64 * (off + start)) - t) start = closeInBlock ws off (exW ws (64 * (off + start)) - t) start := by
  unfold closeInBlockD closeInBlock
  split
  · rfl
  · rw [check_bind (by omega)]
    exact closeLoopD_eq _ _ h

theorem openInBlockD_eq {ws : List W} {t : Int} {off start : Nat} (hl : off + start ≤ ws.length) (h : t < exW ws (64 * (off + start))) :
    openInBlockD ws off (exW ws (64 * (off + start)) - t) start = openInBlock ws off (exW ws (64 * (off + start)) - t) start := by
  unfold openInBlockD openInBlock
  split
  · rfl
  · rw [check_bind (by omega)]
    exact openLoopD_eq _ hl h

variable {b : BP}

theorem searchSuperD_eq (H : b.Rep) (hP : b.Pos) (up : Bool) {c : Nat} (hc : c < b.blocks) (t : Int) :
    b.searchSuperD up c t = b.searchSuper up c t := by
  have hlen := H.rs.wf
  unfold wordsFor at hlen
  have hbl : b.blocks = (b.rs.bv.bits.length + 3) / 4 := rfl
  unfold searchSuperD searchSuper
  dsimp only
  rw [blockExcess_spec H.rs (by omega) H.small, blockExcessD_eq H.rs H.small (by omega) (hP _ (by omega))]

/-- a node that spans an existing superblock does not hold the size -/
theorem node_ne (H : b.Rep) {h d c : Nat} (hn : Node b h d c) (h0 : h = 0 → c < b.supers) {k : Nat} (h1 : c * 2 ^ h ≤ k)
    (h2 : k < (c + 1) * 2 ^ h) (h3 : k < b.supers) {m : Int} (hm : b.superMin[2 ^ d + c]? = some m) : m ≠ int32 b.rs.bv.size := by
  have hlen := H.rs.wf
  have hsm := H.small
  unfold wordsFor at hlen
  have hbl : b.blocks = (b.rs.bv.bits.length + 3) / 4 := rfl
  have hsu : b.supers = (b.blocks + 31) / 32 := rfl
  obtain ⟨m', e1, e2⟩ := node_le H (t := b.rs.bv.size - 1) (by omega) h d c hn h0
  rw [hm] at e1
  injection e1 with e1
  subst e1
  have hk : b.sme k ≤ b.rs.bv.size - 1 := by
    rw [sme_le_iff H h3]
    refine ⟨32 * k, by omega, by omega, by omega, ?_⟩
    rw [bme_le_iff (by omega)]
    have := exW_le b.rs.bv.bits (q := 256 * (32 * k)) (n := b.rs.bv.size) (by omega)
    exact ⟨256 * (32 * k), by omega, by omega, by omega, by omega⟩
  have := e2.mpr ⟨k, h1, h2, h3, hk⟩
  rw [int32_id (by omega) (by omega)]
  omega

theorem inNodeD_ok {t : List Int} {size : Int} {node : Nat} {e m : Int} (h : t[node]? = some m) (hm : m ≠ size) :
    inNodeD t size node e = .ok (decide (e ≥ m)) := by
  unfold inNodeD
  rw [rd_of_getElem? h, M.ok_bind, check_bind hm]

theorem climbD_up (H : b.Rep) {t : Int} (ht : t < b.rs.bv.size) {k : Nat} (hk : k < b.supers) (hkt : b.sme k ≤ t) :
    ∀ d h c fuel, d < fuel → Node b h d c → (c + 1) * 2 ^ h ≤ k → (∀ j, (c + 1) * 2 ^ h ≤ j → j < k → t < b.sme j) →
    ∃ h' d' c', climbD b.superMin (int32 b.rs.bv.size) true t fuel (2 ^ d + c) = .ok (2 ^ d' + c') ∧ Node b h' d' c' ∧ c' * 2 ^ h' ≤ k ∧ k < (c' + 1) * 2 ^ h' ∧
      ∀ j, c' * 2 ^ h' ≤ j → j < k → t < b.sme j := by
  have hfit : b.supers ≤ b.internal := H.fits
  intro d
  induction d with
  | zero =>
      intro h c fuel _ hn hck
      have := hn.int
      have hlt := hn.lt
      rw [Nat.pow_zero] at hlt
      rw [show c = 0 by omega, Nat.zero_add, Nat.one_mul] at hck
      rw [Nat.add_zero] at this
      omega
  | succ d ih =>
      intro h c fuel hf hn hck hbef
      obtain ⟨fuel, rfl⟩ : ∃ f, fuel = f + 1 := ⟨fuel - 1, by omega⟩
      have hint := hn.int
      have hlt := hn.lt
      have e1 : 2 ^ (d + 1) = 2 ^ d + 2 ^ d := by rw [Nat.pow_succ]; omega
      have hpar : Node b (h + 1) d (c / 2) := ⟨by rw [hint]; congr 1; omega, by omega⟩
      have hdiv : (2 ^ (d + 1) + c) / 2 = 2 ^ d + c / 2 := by omega
      unfold climbD
      have hpos : 0 < 2 ^ h := Nat.two_pow_pos h
      rw [check_bind (by have := Nat.two_pow_pos d; omega), hdiv]
      by_cases hodd : c % 2 = 1
      · have hc2 : (c / 2 + 1) * 2 ^ (h + 1) = (c + 1) * 2 ^ h := by
          rw [Nat.pow_succ, show c + 1 = (c / 2 + 1) * 2 by omega, Nat.mul_assoc, Nat.mul_comm 2 (2 ^ h)]
        rw [if_pos (by simp; omega)]
        apply ih (h + 1) (c / 2) fuel (by omega) hpar
        · rw [hc2]; exact hck
        · rw [hc2]; exact hbef
      · have hc2 : (c / 2 + 1) * 2 ^ (h + 1) = (c + 1 + 1) * 2 ^ h := by
          rw [Nat.pow_succ, show c + 1 + 1 = (c / 2 + 1) * 2 by omega, Nat.mul_assoc, Nat.mul_comm 2 (2 ^ h)]
        rw [if_neg (by simp; omega)]
        dsimp only
        have hsib : Node b h (d + 1) (c + 1) := ⟨hint, by omega⟩
        obtain ⟨m, m1, m2⟩ := node_le H ht h (d + 1) (c + 1) hsib (fun h0 => by
          subst h0
          rw [Nat.pow_zero, Nat.mul_one] at hck
          omega)
        have hne := node_ne H hsib (fun h0 => by
          subst h0
          rw [Nat.pow_zero, Nat.mul_one] at hck
          omega) (Nat.le_refl _) (Nat.mul_lt_mul_of_pos_right (show c + 1 < c + 1 + 1 by omega) hpos) (Nat.lt_of_le_of_lt hck hk) m1
        rw [if_pos rfl, Nat.add_assoc, inNodeD_ok m1 hne, M.ok_bind]
        by_cases hm : t ≥ m
        · rw [if_pos (by simpa using hm)]
          obtain ⟨j, j1, j2, j3, j4⟩ := m2.mp hm
          refine ⟨h, d + 1, c + 1, rfl, hsib, hck, ?_, hbef⟩
          apply Nat.lt_of_not_le
          intro hle
          have := hbef j j1 (by omega)
          omega
        · rw [if_neg (by simpa using hm)]
          apply ih (h + 1) (c / 2) fuel (by omega) hpar
          · rw [hc2]
            apply Nat.le_of_not_lt
            intro hlt
            exact hm (m2.mpr ⟨k, hck, hlt, hk, hkt⟩)
          · rw [hc2]
            intro j j1 j2
            apply hbef j _ j2
            exact Nat.le_trans (Nat.mul_le_mul_right _ (by omega)) j1

theorem climbD_down (H : b.Rep) {t : Int} (ht : t < b.rs.bv.size) {k s : Nat} (hs : s < b.supers) (hkt : b.sme k ≤ t) :
    ∀ d h c fuel, d < fuel → Node b h d c → c * 2 ^ h ≤ s → k < c * 2 ^ h → (∀ j, k < j → j < c * 2 ^ h → t < b.sme j) →
    ∃ h' d' c', climbD b.superMin (int32 b.rs.bv.size) false t fuel (2 ^ d + c) = .ok (2 ^ d' + c') ∧ Node b h' d' c' ∧ c' * 2 ^ h' ≤ k ∧ k < (c' + 1) * 2 ^ h' ∧
      (c' + 1) * 2 ^ h' ≤ s ∧ ∀ j, k < j → j < (c' + 1) * 2 ^ h' → t < b.sme j := by
  intro d
  induction d with
  | zero =>
      intro h c fuel _ hn _ hck
      have hlt := hn.lt
      rw [Nat.pow_zero] at hlt
      rw [show c = 0 by omega, Nat.zero_mul] at hck
      omega
  | succ d ih =>
      intro h c fuel hf hn hcs hck hbef
      obtain ⟨fuel, rfl⟩ : ∃ f, fuel = f + 1 := ⟨fuel - 1, by omega⟩
      have hint := hn.int
      have hlt := hn.lt
      have e1 : 2 ^ (d + 1) = 2 ^ d + 2 ^ d := by rw [Nat.pow_succ]; omega
      have hpar : Node b (h + 1) d (c / 2) := ⟨by rw [hint]; congr 1; omega, by omega⟩
      have hdiv : (2 ^ (d + 1) + c) / 2 = 2 ^ d + c / 2 := by omega
      unfold climbD
      have hpos : 0 < 2 ^ h := Nat.two_pow_pos h
      rw [check_bind (by have := Nat.two_pow_pos d; omega), hdiv]
      by_cases hodd : c % 2 = 0
      · have hc2 : c / 2 * 2 ^ (h + 1) = c * 2 ^ h := by
          rw [Nat.pow_succ, Nat.mul_comm (2 ^ h) 2, ← Nat.mul_assoc, show c / 2 * 2 = c by omega]
        have hx : ((2 ^ (d + 1) + c) % 2 == 1) = false := by
          rw [show (2 ^ (d + 1) + c) % 2 = 0 by omega]; rfl
        rw [hx, if_pos (by decide)]
        apply ih (h + 1) (c / 2) fuel (by omega) hpar
        · rw [hc2]; exact hcs
        · rw [hc2]; exact hck
        · rw [hc2]; exact hbef
      · obtain ⟨u, rfl⟩ : ∃ u, c = u + 1 := ⟨c - 1, by omega⟩
        have hc2 : (u + 1) / 2 * 2 ^ (h + 1) = u * 2 ^ h := by
          rw [Nat.pow_succ, Nat.mul_comm (2 ^ h) 2, ← Nat.mul_assoc, show (u + 1) / 2 * 2 = u by omega]
        have hle : u * 2 ^ h ≤ (u + 1) * 2 ^ h := Nat.mul_le_mul_right _ (by omega)
        have hx : ((2 ^ (d + 1) + (u + 1)) % 2 == 1) = true := by
          rw [show (2 ^ (d + 1) + (u + 1)) % 2 = 1 by omega]; rfl
        rw [hx, if_neg (by decide)]
        dsimp only
        have hsib : Node b h (d + 1) u := ⟨hint, by omega⟩
        obtain ⟨m, m1, m2⟩ := node_le H ht h (d + 1) u hsib (fun h0 => by
          subst h0
          rw [Nat.pow_zero, Nat.mul_one] at hcs
          omega)
        have hne := node_ne H hsib (fun h0 => by
          subst h0
          rw [Nat.pow_zero, Nat.mul_one] at hcs
          omega) (Nat.le_refl _) (Nat.mul_lt_mul_of_pos_right (show u < u + 1 by omega) hpos) (Nat.lt_of_le_of_lt (Nat.le_trans hle hcs) hs) m1
        rw [if_neg (by decide), show 2 ^ (d + 1) + (u + 1) - 1 = 2 ^ (d + 1) + u by omega, inNodeD_ok m1 hne, M.ok_bind]
        by_cases hm : t ≥ m
        · rw [if_pos (by simpa using hm)]
          obtain ⟨j, j1, j2, j3, j4⟩ := m2.mp hm
          refine ⟨h, d + 1, u, rfl, hsib, ?_, hck, hcs, hbef⟩
          apply Nat.le_of_not_lt
          intro hlt
          have := hbef j (by omega) j2
          omega
        · rw [if_neg (by simpa using hm)]
          apply ih (h + 1) ((u + 1) / 2) fuel (by omega) hpar
          · rw [hc2]; omega
          · rw [hc2]
            apply Nat.lt_of_not_le
            intro hle
            exact hm (m2.mpr ⟨k, hle, hck, by omega, hkt⟩)
          · rw [hc2]
            intro j j1 j2
            exact hbef j j1 (by omega)

theorem descendD_up (H : b.Rep) {t : Int} (ht : t < b.rs.bv.size) {k : Nat} (hk : k < b.supers) (hkt : b.sme k ≤ t) :
    ∀ h d c fuel, h < fuel → Node b h d c → c * 2 ^ h ≤ k → k < (c + 1) * 2 ^ h → (∀ j, c * 2 ^ h ≤ j → j < k → t < b.sme j) →
    descendD b.superMin (int32 b.rs.bv.size) b.internal true t fuel (2 ^ d + c) = .ok (b.internal + k) := by
  intro h
  induction h with
  | zero =>
      intro d c fuel hf hn h1 h2 _
      obtain ⟨fuel, rfl⟩ : ∃ f, fuel = f + 1 := ⟨fuel - 1, by omega⟩
      have := hn.int
      rw [Nat.zero_add] at this
      simp only [Nat.pow_zero, Nat.mul_one] at h1 h2
      unfold descendD
      rw [if_neg (by omega), this, show c = k by omega]
  | succ h ih =>
      intro d c fuel hf hn h1 h2 hbef
      obtain ⟨fuel, rfl⟩ : ∃ f, fuel = f + 1 := ⟨fuel - 1, by omega⟩
      obtain ⟨n1, n2, hv⟩ := hn.children
      obtain ⟨a1, a2⟩ := children_at c h
      rw [a1] at h1 hbef
      rw [a2] at h2
      have e1 : 2 ^ (d + 1) = 2 ^ d + 2 ^ d := by rw [Nat.pow_succ]; omega
      obtain ⟨m, m1, m2⟩ := node_le H ht h (d + 1) (2 * c) n1 (fun h0 => by
        subst h0
        rw [Nat.pow_zero, Nat.mul_one] at h1
        omega)
      have hpos : 0 < 2 ^ h := Nat.two_pow_pos h
      have hne := node_ne H n1 (fun h0 => by
        subst h0
        rw [Nat.pow_zero, Nat.mul_one] at h1
        omega) (Nat.le_refl _) (Nat.mul_lt_mul_of_pos_right (show 2 * c < 2 * c + 1 by omega) hpos) (Nat.lt_of_le_of_lt h1 hk) m1
      unfold descendD
      rw [if_pos hv]
      dsimp only
      rw [if_pos rfl, show (2 ^ d + c) * 2 = 2 ^ (d + 1) + 2 * c by omega, inNodeD_ok m1 hne, M.ok_bind]
      by_cases hm : t ≥ m
      · rw [if_pos (by simpa using hm)]
        obtain ⟨j, j1, j2, j3, j4⟩ := m2.mp hm
        apply ih (d + 1) (2 * c) fuel (by omega) n1 h1 _ hbef
        apply Nat.lt_of_not_le
        intro hle
        have := hbef j j1 (by omega)
        omega
      · have hle : (2 * c + 1) * 2 ^ h ≤ k := by
          apply Nat.le_of_not_lt
          intro hlt
          exact hm (m2.mpr ⟨k, h1, hlt, hk, hkt⟩)
        have h0' : h = 0 → 2 * c + 1 < b.supers := fun h0 => by
          subst h0
          rw [Nat.pow_zero, Nat.mul_one] at hle
          omega
        obtain ⟨m', m1', m2'⟩ := node_le H ht h (d + 1) (2 * c + 1) n2 h0'
        have hne' := node_ne H n2 h0' hle h2 hk m1'
        rw [if_neg (by simpa using hm), if_pos rfl, Nat.add_assoc, inNodeD_ok m1' hne', M.ok_bind,
          check_bind (by simpa using m2'.mpr ⟨k, hle, h2, hk, hkt⟩)]
        apply ih (d + 1) (2 * c + 1) fuel (by omega) n2 hle h2
        intro j j1 j2
        apply hbef j _ j2
        exact Nat.le_trans (Nat.mul_le_mul_right _ (by omega)) j1

theorem descendD_down (H : b.Rep) {t : Int} (ht : t < b.rs.bv.size) {k : Nat} (hkt : b.sme k ≤ t) :
    ∀ h d c fuel, h < fuel → Node b h d c → (c + 1) * 2 ^ h ≤ b.supers → c * 2 ^ h ≤ k → k < (c + 1) * 2 ^ h →
    (∀ j, k < j → j < (c + 1) * 2 ^ h → t < b.sme j) →
    descendD b.superMin (int32 b.rs.bv.size) b.internal false t fuel (2 ^ d + c) = .ok (b.internal + k) := by
  intro h
  induction h with
  | zero =>
      intro d c fuel hf hn _ h1 h2 _
      obtain ⟨fuel, rfl⟩ : ∃ f, fuel = f + 1 := ⟨fuel - 1, by omega⟩
      have := hn.int
      rw [Nat.zero_add] at this
      simp only [Nat.pow_zero, Nat.mul_one] at h1 h2
      unfold descendD
      rw [if_neg (by omega), this, show c = k by omega]
  | succ h ih =>
      intro d c fuel hf hn hs h1 h2 hbef
      obtain ⟨fuel, rfl⟩ : ∃ f, fuel = f + 1 := ⟨fuel - 1, by omega⟩
      obtain ⟨n1, n2, hv⟩ := hn.children
      obtain ⟨a1, a2⟩ := children_at c h
      rw [a1] at h1
      rw [a2] at h2 hbef hs
      have e1 : 2 ^ (d + 1) = 2 ^ d + 2 ^ d := by rw [Nat.pow_succ]; omega
      have hmono : (2 * c + 1) * 2 ^ h ≤ (2 * c + 1 + 1) * 2 ^ h := Nat.mul_le_mul_right _ (by omega)
      obtain ⟨m, m1, m2⟩ := node_le H ht h (d + 1) (2 * c + 1) n2 (fun h0 => by
        subst h0
        rw [Nat.pow_zero, Nat.mul_one] at hs
        omega)
      have hpos : 0 < 2 ^ h := Nat.two_pow_pos h
      have hlt' := Nat.mul_lt_mul_of_pos_right (show 2 * c + 1 < 2 * c + 1 + 1 by omega) hpos
      have hne := node_ne H n2 (fun h0 => by
        subst h0
        rw [Nat.pow_zero, Nat.mul_one] at hs
        omega) (Nat.le_refl _) hlt' (Nat.lt_of_lt_of_le hlt' hs) m1
      unfold descendD
      rw [if_pos hv]
      dsimp only
      rw [if_neg (by decide), show (2 ^ d + c) * 2 + 1 = 2 ^ (d + 1) + (2 * c + 1) by omega, inNodeD_ok m1 hne, M.ok_bind]
      by_cases hm : t ≥ m
      · rw [if_pos (by simpa using hm)]
        obtain ⟨j, j1, j2, j3, j4⟩ := m2.mp hm
        apply ih (d + 1) (2 * c + 1) fuel (by omega) n2 hs _ h2 hbef
        apply Nat.le_of_not_lt
        intro hlt
        have := hbef j (by omega) j2
        omega
      · have hlt : k < (2 * c + 1) * 2 ^ h := by
          apply Nat.lt_of_not_le
          intro hle
          exact hm (m2.mpr ⟨k, hle, h2, by omega, hkt⟩)
        have h0' : h = 0 → 2 * c < b.supers := fun h0 => by
          subst h0
          rw [Nat.pow_zero, Nat.mul_one] at hs
          omega
        obtain ⟨m', m1', m2'⟩ := node_le H ht h (d + 1) (2 * c) n1 h0'
        have hne' := node_ne H n1 h0' h1 hlt (by omega) m1'
        rw [if_neg (by simpa using hm), if_neg (by decide), show 2 ^ (d + 1) + (2 * c + 1) - 1 = 2 ^ (d + 1) + 2 * c from rfl,
          inNodeD_ok m1' hne', M.ok_bind, check_bind (by simpa using m2'.mpr ⟨k, h1, hlt, by omega, hkt⟩)]
        apply ih (d + 1) (2 * c) fuel (by omega) n1 (by omega) h1 hlt
        intro j j1 j2
        exact hbef j j1 (by omega)

theorem searchTreeD_up (H : b.Rep) (hP : b.Pos) {t : Int} (ht : t < b.rs.bv.size) {c p : Nat} (h1 : c ≤ p) (hp : p < b.blocks) (hpt : b.bme p ≤ t)
    (hbef : ∀ j, c ≤ j → j < p → t < b.bme j) : b.searchTreeD true c t = .ok p := by
  have key : ∀ c', c ≤ c' → c' ≤ p → c' / 32 = p / 32 → b.searchSuperD true c' t = .ok (some p) := by
    intro c' a1 a2 a3
    rw [searchSuperD_eq H hP _ (by omega)]
    rcases searchSuper_up H (c := c') (t := t) (by omega) with ⟨k, k1, k2, k3, k4, k5, k6⟩ | ⟨k1, _⟩
    · rw [k6]
      rcases Nat.lt_trichotomy k p with h | h | h
      · have := hbef k (by omega) h; omega
      · rw [h]
      · have := k5 p (by omega) h; omega
    · have := k1 p (by omega) (by omega) hp
      omega
  have hbl : b.blocks = (b.rs.bv.bits.length + 3) / 4 := rfl
  have hsu : b.supers = (b.blocks + 31) / 32 := rfl
  unfold searchTreeD
  by_cases hs : c / 32 = p / 32
  · rw [key c (Nat.le_refl _) h1 hs, M.ok_bind]
  · have hno : b.searchSuperD true c t = .ok none := by
      rw [searchSuperD_eq H hP _ (by omega)]
      rcases searchSuper_up H (c := c) (t := t) (by omega) with ⟨k, k1, k2, k3, k4, k5, k6⟩ | ⟨_, k1⟩
      · have := hbef k (by omega) (by omega); omega
      · exact k1
    rw [hno, M.ok_bind]
    dsimp only
    obtain ⟨e, he⟩ := H.pow
    have hk : p / 32 < b.supers := by omega
    have hkt : b.sme (p / 32) ≤ t := (sme_le_iff H hk).mpr ⟨p, by omega, by omega, hp, hpt⟩
    have hbet : ∀ j, c / 32 + 1 ≤ j → j < p / 32 → t < b.sme j := by
      intro j j1 j2
      apply Int.not_le.mp
      intro hle
      obtain ⟨x, x1, x2, x3, x4⟩ := (sme_le_iff H (by omega)).mp hle
      have := hbef x (by omega) (by omega)
      omega
    have hfit : b.supers ≤ b.internal := H.fits
    have hn : Node b 0 e (c / 32) := ⟨by rw [he, Nat.zero_add], by omega⟩
    obtain ⟨h', d', c', r1, r2, r3, r4, r5⟩ := climbD_up H ht hk hkt e 0 (c / 32) (2 * b.internal + 1) hn.height.2 hn
      (by rw [Nat.pow_zero, Nat.mul_one]; omega) (by rw [Nat.pow_zero, Nat.mul_one]; exact hbet)
    rw [← he] at r1
    rw [r1, M.ok_bind, check_bind (by have := Nat.two_pow_pos d'; omega), descendD_up H ht hk hkt h' d' c' (b.internal + 1) r2.height.1 r2 r3 r4 r5, M.ok_bind, if_pos rfl,
      show (b.internal + p / 32 - b.internal) * 32 + 0 = p / 32 * 32 by omega, key (p / 32 * 32) (by omega) (by omega) (by omega), M.ok_bind]

theorem searchTreeD_down (H : b.Rep) (hP : b.Pos) {t : Int} (ht : t < b.rs.bv.size) {c p : Nat} (h1 : p ≤ c) (hc : c < b.blocks) (hpt : b.bme p ≤ t)
    (hbef : ∀ j, p < j → j ≤ c → t < b.bme j) : b.searchTreeD false c t = .ok p := by
  have key : ∀ c', p ≤ c' → c' ≤ c → c' / 32 = p / 32 → b.searchSuperD false c' t = .ok (some p) := by
    intro c' a1 a2 a3
    rw [searchSuperD_eq H hP _ (by omega)]
    rcases searchSuper_down H (c := c') (t := t) (by omega) with ⟨k, k1, k2, k4, k5, k6⟩ | ⟨k1, _⟩
    · rw [k6]
      rcases Nat.lt_trichotomy k p with h | h | h
      · have := k5 p h (by omega); omega
      · rw [h]
      · have := hbef k h (by omega); omega
    · have := k1 p (by omega) (by omega)
      omega
  have hbl : b.blocks = (b.rs.bv.bits.length + 3) / 4 := rfl
  have hsu : b.supers = (b.blocks + 31) / 32 := rfl
  unfold searchTreeD
  by_cases hs : c / 32 = p / 32
  · rw [key c h1 (Nat.le_refl _) hs, M.ok_bind]
  · have hno : b.searchSuperD false c t = .ok none := by
      rw [searchSuperD_eq H hP _ (by omega)]
      rcases searchSuper_down H (c := c) (t := t) hc with ⟨k, k1, k2, k4, k5, k6⟩ | ⟨_, k1⟩
      · have := hbef k (by omega) (by omega); omega
      · exact k1
    rw [hno, M.ok_bind]
    dsimp only
    obtain ⟨e, he⟩ := H.pow
    have hk : p / 32 < b.supers := by omega
    have hkt : b.sme (p / 32) ≤ t := (sme_le_iff H hk).mpr ⟨p, by omega, by omega, by omega, hpt⟩
    have hbet : ∀ j, p / 32 < j → j < c / 32 → t < b.sme j := by
      intro j j1 j2
      apply Int.not_le.mp
      intro hle
      obtain ⟨x, x1, x2, x3, x4⟩ := (sme_le_iff H (by omega)).mp hle
      have := hbef x (by omega) (by omega)
      omega
    have hfit : b.supers ≤ b.internal := H.fits
    have hn : Node b 0 e (c / 32) := ⟨by rw [he, Nat.zero_add], by omega⟩
    obtain ⟨h', d', c', r1, r2, r3, r4, r5, r6⟩ := climbD_down H ht (s := c / 32) (by omega) hkt e 0 (c / 32) (2 * b.internal + 1) hn.height.2 hn
      (by rw [Nat.pow_zero, Nat.mul_one]; omega) (by rw [Nat.pow_zero, Nat.mul_one]; omega) (by rw [Nat.pow_zero, Nat.mul_one]; exact hbet)
    rw [← he] at r1
    rw [r1, M.ok_bind, check_bind (by have := Nat.two_pow_pos d'; omega), descendD_down H ht hkt h' d' c' (b.internal + 1) r2.height.1 r2 (by omega) r3 r4 r6, M.ok_bind, if_neg (by decide),
      show (b.internal + p / 32 - b.internal) * 32 + 31 = p / 32 * 32 + 31 by omega, key (p / 32 * 32 + 31) (by omega) (by omega) (by omega), M.ok_bind]

theorem findCloseD_spec (H : b.Rep) (hP : b.Pos) {pos q : Nat} (h1 : pos + 1 < q) (h2 : q ≤ b.rs.bv.size)
    (hopen : exW b.rs.bv.bits (pos + 1) = exW b.rs.bv.bits pos + 1) (hq : exW b.rs.bv.bits q ≤ exW b.rs.bv.bits pos)
    (hb : ∀ j, pos < j → j < q → exW b.rs.bv.bits pos < exW b.rs.bv.bits j) : b.findCloseD pos = .ok (q - 1) := by
  have hlen := H.rs.wf
  have hsm := H.small
  unfold wordsFor at hlen
  have hw : (pos + 1) / 64 < b.rs.bv.bits.length := by omega
  have hex := excessD_eq H (p := pos) (by omega)
  have htb := exW_diff b.rs.bv.bits 0 pos
  rw [Nat.zero_add, exW_zero] at htb
  have hblock := fun k hk => blockExcessD_eq H.rs H.small (k := k) hk (hP _ hk)
  have htree := fun c p => searchTreeD_up H hP (t := exW b.rs.bv.bits pos) (by omega) (c := c) (p := p)
  have hbm := fun c hc => bme_le_iff (b := b) (c := c) (t := exW b.rs.bv.bits pos) hc
  have hbl : b.blocks = (b.rs.bv.bits.length + 3) / 4 := rfl
  have hbit : b.rs.bv.getD' pos = .ok true := by
    unfold BV.getD'
    rw [check_bind (by omega), BV.get_spec _ _ (by omega)]
    have h3 : exW b.rs.bv.bits (pos + 1) = exW b.rs.bv.bits pos + (if bitAt b.rs.bv.bits pos then 1 else -1) := exc_succ _ _
    cases hb : bitAt b.rs.bv.bits pos with
    | true => rfl
    | false => rw [hb] at h3; simp at h3; omega
  unfold findCloseD
  rw [hbit, M.ok_bind, check_bind rfl]
  dsimp only
  generalize hws : b.rs.bv.bits = ws at *
  rw [rd_ok hw, M.ok_bind]
  have hp1 := fun n hn => padOpen_exc hw (n := n) hn
  have hp2 := fun n hn hn2 => padOpen_rest hw (n := n) hn hn2
  have hcnt : ((bytesSum (byteCounts (padOpen ws[(pos + 1) / 64] ((pos + 1) % 64)))).toNat : Int) =
      cnt (padOpen ws[(pos + 1) / 64] ((pos + 1) % 64)).getLsbD 64 := by rw [bytesSum_counts]
  have hspec := closeInWordD_spec (padOpen ws[(pos + 1) / 64] ((pos + 1) % 64)) (e := 1) (by omega) (by omega)
  generalize padOpen ws[(pos + 1) / 64] ((pos + 1) % 64) = pw at hp1 hp2 hcnt hspec
  by_cases hin : q ≤ 64 * ((pos + 1) / 64 + 1)
  · rcases hspec with ⟨n, n1, n2⟩ | ⟨n1, n2⟩
    · have e1 := n1.unique (m := q - (pos + 1)) (by
        rw [hp1 _ (by omega), show pos + 1 + (q - (pos + 1)) = q by omega]; omega) (by
        intro k hk
        rw [hp1 _ (by omega)]
        have := hb (pos + 1 + k) (by omega) (by omega)
        omega)
      rw [n2, M.ok_bind]
      show Except.ok _ = _
      congr 1; omega
    · have := n1 (q - (pos + 1)) (by omega)
      rw [hp1 _ (by omega), show pos + 1 + (q - (pos + 1)) = q by omega] at this
      omega
  · have hnone : closeInWordD pw (byteCounts pw) 1 = .ok none := by
      rcases hspec with ⟨n, n1, n2⟩ | ⟨n1, n2⟩
      · have a1 := n1.hit
        have a2 := n1.le
        by_cases hn : n ≤ 64 - (pos + 1) % 64
        · rw [hp1 n hn] at a1
          have := hb (pos + 1 + n) (by omega) (by omega)
          omega
        · rw [hp2 n a2 (by omega)] at a1
          have := hb (64 * ((pos + 1) / 64 + 1)) (by omega) (by omega)
          omega
      · exact n2
    rw [hnone, M.ok_bind]
    dsimp only
    have hloc : int32 (2 * (((bytesSum (byteCounts pw)).toNat : Int) - ((pos + 1) % 64 : Nat)) - (64 - ((pos + 1) % 64 : Nat))) + 1 =
        exW ws (64 * ((pos + 1) / 64 / 4 * 4 + ((pos + 1) / 64 % 4 + 1))) - exW ws pos := by
      have h64 := hp2 64 (Nat.le_refl _) (by omega)
      unfold exc at h64
      have hc := cnt_le pw.getLsbD 64
      rw [hcnt, show (pos + 1) / 64 / 4 * 4 + ((pos + 1) / 64 % 4 + 1) = (pos + 1) / 64 + 1 by omega, int32_id (by omega) (by omega)]
      omega
    rw [hloc]
    by_cases hin2 : q ≤ 64 * ((pos + 1) / 64 / 4 * 4 + 4)
    · rw [closeInBlockD_eq (hb _ (by omega) (by omega)), closeInBlock_some (q := q) (by omega) (by omega) hq (by omega) hin2 (fun j j1 j2 => hb j (by omega) j2), M.ok_bind]
    · rw [closeInBlockD_eq (hb _ (by omega) (by omega)), closeInBlock_none (by omega) (by omega) (fun j j1 j2 => hb j (by omega) (by omega)), M.ok_bind]
      dsimp only
      rw [hex, M.ok_bind, htree _ ((q - 1) / 256) (by omega) (by omega) ((hbm _ (by omega)).mpr ⟨q, by omega, by omega, by omega, hq⟩) (by
        intro j j1 j2
        apply Int.not_le.mp
        intro hle
        obtain ⟨x, x1, x2, x3, x4⟩ := (hbm j (by omega)).mp hle
        have := hb x (by omega) (by omega)
        omega), M.ok_bind, hblock _ (by omega), M.ok_bind]
      have hlastD := closeInBlockD_eq (ws := ws) (t := exW ws pos) (off := (q - 1) / 256 * 4) (start := 0) (hb _ (by omega) (by omega))
      have hlast := closeInBlock_some (ws := ws) (t := exW ws pos) (off := (q - 1) / 256 * 4) (start := 0) (q := q) (by omega) (by omega) hq
        (by omega) (by omega) (fun j j1 j2 => hb j (by omega) j2)
      rw [show 64 * ((q - 1) / 256 * 4 + 0) = 256 * ((q - 1) / 256) by omega] at hlast hlastD
      rw [hlastD, hlast, M.ok_bind]

theorem findOpenD_spec (H : b.Rep) (hP : b.Pos) {pos q : Nat} (h1 : q < pos) (h2 : pos < b.rs.bv.size)
    (hq : exW b.rs.bv.bits q < exW b.rs.bv.bits pos)
    (hb : ∀ j, q < j → j ≤ pos → exW b.rs.bv.bits pos ≤ exW b.rs.bv.bits j) : b.findOpenD pos = .ok q := by
  have hlen := H.rs.wf
  have hsm := H.small
  unfold wordsFor at hlen
  have hw : pos / 64 < b.rs.bv.bits.length := by omega
  have hex := excessD_eq H (p := pos) (by omega)
  have htb := exW_diff b.rs.bv.bits 0 pos
  rw [Nat.zero_add, exW_zero] at htb
  have hblock := fun k hk => blockExcessD_eq H.rs H.small (k := k) hk (hP _ hk)
  have htree := fun c p => searchTreeD_down H hP (t := exW b.rs.bv.bits pos - 1) (by omega) (c := c) (p := p)
  have hbm := fun c hc => bme_le_iff (b := b) (c := c) (t := exW b.rs.bv.bits pos - 1) hc
  have hbl : b.blocks = (b.rs.bv.bits.length + 3) / 4 := rfl
  unfold findOpenD
  rw [check_bind (by omega)]
  dsimp only
  generalize hws : b.rs.bv.bits = ws at *
  rw [rd_ok hw, M.ok_bind]
  have hp1 := fun n hn => padClose_exc hw (n := n) hn
  have hp2 := fun n hn hn2 => padClose_rest hw (n := n) hn hn2
  have hcnt : ((bytesSum (byteCounts (padClose ws[pos / 64] (pos % 64)))).toNat : Int) =
      cnt (padClose ws[pos / 64] (pos % 64)).getLsbD 64 := by rw [bytesSum_counts]
  have hspec := openInWordD_spec (padClose ws[pos / 64] (pos % 64)) (e := 1) (by omega) (by omega)
  generalize padClose ws[pos / 64] (pos % 64) = pw at hp1 hp2 hcnt hspec
  by_cases hin : 64 * (pos / 64) ≤ q
  · rcases hspec with ⟨n, n1, n2⟩ | ⟨n1, n2⟩
    · have e1 := n1.unique (m := pos - q) (by
        rw [hp1 _ (by omega), show pos - (pos - q) = q by omega]; omega) (by
        intro k hk
        rw [hp1 _ (by omega)]
        have := hb (pos - k) (by omega) (by omega)
        omega)
      rw [n2, M.ok_bind]
      show Except.ok _ = _
      congr 1; omega
    · have := n1 (pos - q) (by omega)
      rw [hp1 _ (by omega), show pos - (pos - q) = q by omega] at this
      omega
  · have hnone : openInWordD pw (byteCounts pw) 1 = .ok none := by
      rcases hspec with ⟨n, n1, n2⟩ | ⟨n1, n2⟩
      · have a1 := n1.hit
        have a2 := n1.le
        by_cases hn : n ≤ pos % 64
        · rw [hp1 n hn] at a1
          have := hb (pos - n) (by omega) (by omega)
          omega
        · rw [hp2 n a2 (by omega)] at a1
          have := hb (64 * (pos / 64)) (by omega) (by omega)
          omega
      · exact n2
    rw [hnone, M.ok_bind]
    dsimp only
    have hloc : -int32 (2 * ((bytesSum (byteCounts pw)).toNat : Int) - (pos % 64 : Nat)) + 1 =
        exW ws (64 * (pos / 64 / 4 * 4 + pos / 64 % 4)) - (exW ws pos - 1) := by
      have h64 := hp2 64 (Nat.le_refl _) (by omega)
      have h63 := exc_back pw.getLsbD 64 64 (Nat.le_refl _)
      rw [show (fun j => !pw.getLsbD (64 - 1 - j)) = (fun j => !pw.getLsbD (63 - j)) from rfl, h64, Nat.sub_self, exc_zero] at h63
      unfold exc at h63
      have hc := cnt_le pw.getLsbD 64
      rw [hcnt, show pos / 64 / 4 * 4 + pos / 64 % 4 = pos / 64 by omega, int32_id (by omega) (by omega)]
      omega
    rw [hloc]
    by_cases hin2 : 64 * (pos / 64 / 4 * 4) ≤ q
    · rw [openInBlockD_eq (by omega) (by have := hb (64 * (pos / 64 / 4 * 4 + pos / 64 % 4)) (by omega) (by omega); omega), openInBlock_some (q := q) (by omega) (by omega) (by omega) hin2 (by omega) (fun j j1 j2 => by have := hb j j1 (by omega); omega), M.ok_bind]
    · rw [openInBlockD_eq (by omega) (by have := hb (64 * (pos / 64 / 4 * 4 + pos / 64 % 4)) (by omega) (by omega); omega), openInBlock_none (by omega) (by omega) (fun j j1 j2 => by have := hb j (by omega) (by omega); omega), M.ok_bind]
      dsimp only
      rw [hex, M.ok_bind, if_neg (by omega), htree _ (q / 256) (by omega) (by omega) ((hbm _ (by omega)).mpr ⟨q, by omega, by omega, by omega, by omega⟩) (by
        intro j j1 j2
        apply Int.not_le.mp
        intro hle
        obtain ⟨x, x1, x2, x3, x4⟩ := (hbm j (by omega)).mp hle
        have := hb x (by omega) (by omega)
        omega), M.ok_bind, hblock _ (by omega), M.ok_bind]
      have hlastD := openInBlockD_eq (ws := ws) (t := exW ws pos - 1) (off := q / 256 * 4) (start := 4) (by omega) (by have := hb (64 * (q / 256 * 4 + 4)) (by omega) (by omega); omega)
      have hlast := openInBlock_some (ws := ws) (t := exW ws pos - 1) (off := q / 256 * 4) (start := 4) (q := q) (by omega) (by omega) (by omega)
        (by omega) (by omega) (fun j j1 j2 => by have := hb j j1 (by omega); omega)
      rw [show 64 * (q / 256 * 4 + 4) = 256 * (q / 256 + 1) by omega] at hlast hlastD
      rw [hlastD, hlast, M.ok_bind]

end AC.BP
