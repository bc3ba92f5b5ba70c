import Verif.Proofs.DebugRmq
import Verif.Proofs.BpMatch
/-!
# The least excess over a range: the assertions hold
-/
namespace AC

theorem Exc.inBlockD_eq (bits : List W) {start last : Nat} (h : start ≤ last) (hs : start < last → start / 4 = (last - 1) / 4) (s : Exc) :
    Exc.inBlockD bits start last s = Exc.inBlock bits (last - start) start s := by
  unfold Exc.inBlockD
  rw [check_bind h]
  split
  · rename_i he
    rw [he, Nat.sub_self]
    rfl
  · rw [check_bind (hs (by omega))]

/-- what a scan of some words finds -/
theorem Exc.inBlock_scan {ws : List W} : ∀ n w (t : Exc), w + n ≤ ws.length → t.cur = exW ws (64 * w) →
    0 < n → ∃ t' m q, Exc.inBlock ws n w t = .ok t' ∧ Best (exW ws) (64 * w) (64 * (w + n)) m q ∧
      t'.min = (if m < t.min then m else t.min) := by
  intro n
  induction n with
  | zero => intro w t _ _ h; omega
  | succ n ih =>
      intro w t hl htc _
      have hw : w < ws.length := by omega
      obtain ⟨m, j, g1, g2⟩ := Exc.inWord_spec ws[w] (w * 64) t
      have g3 := g1.shift (e' := exW ws) (s := 64 * w) (by
        intro q _ hq
        rw [exW_word _ w hw q hq, htc])
      have step : Exc.inBlock ws (n + 1) w t = Exc.inBlock ws n (w + 1) (Exc.inWord ws[w] (w * 64) t) := by
        show (do
          let x ← rd ws w
          Exc.inBlock ws n (w + 1) (Exc.inWord x (w * 64) t)) = _
        rw [rd_ok hw, M.ok_bind]
      rw [step, g2]
      by_cases hn : n = 0
      · subst hn
        exact ⟨_, m, 64 * w + j, rfl, g3, rfl⟩
      · obtain ⟨t', m2, q2, i1, i2, i3⟩ := ih (w + 1) ⟨t.cur + exc ws[w].getLsbD 64, if m < t.min then m else t.min,
          if m < t.min then w * 64 + j else t.idx⟩ (by omega) (by
            dsimp only
            rw [show 64 * (w + 1) = 64 * w + 64 by omega, exW_word _ w hw 64 (Nat.le_refl _), htc]) (by omega)
        rw [i1]
        have hmm := g3.merge i2 (by omega) (by omega) (by omega)
        refine ⟨t', _, _, rfl, by rw [show w + (n + 1) = w + 1 + n by omega]; exact hmm, ?_⟩
        rw [i3]
        dsimp only
        repeat' split
        all_goals first | rfl | (exfalso; omega)

namespace BP

variable {b : BP}

theorem excessD_eq (H : b.Rep) {p : Nat} (hp : p ≤ b.rs.bv.size) : b.excessD p = .ok (exW b.rs.bv.bits p) := by
  rw [← excess_eq H hp]
  unfold excessD excess
  rw [RS.rankD_eq hp]

theorem inSuperD_eq (H : b.Rep) (hP : b.Pos) {first last : Nat} (h : first ≤ last)
    (hs : first < last → first / 32 = (last - 1) / 32 ∧ 256 * (last - 1) < b.rs.bv.size) (t : Int × Nat) :
    b.inSuperD first last t = b.inSuper first last t := by
  unfold inSuperD inSuper
  rw [check_bind h]
  split
  · rfl
  · obtain ⟨h1, h2⟩ := hs (by omega)
    have h3 : 256 * (first / 32 * 32) ≤ b.rs.bv.size := by omega
    rw [check_bind h1, blockExcessD_eq H.rs H.small h3 (hP _ h3), blockExcess_spec H.rs h3 H.small]

theorem upD_eq (H : b.Rep) {last : Nat} (hl : last ≤ b.supers) : ∀ fuel c, At b c → c.right < last - 1 → 1 ≤ c.node →
    upD b.superMin last fuel c = up b.superMin last fuel c := by
  intro fuel
  induction fuel with
  | zero => intro c _ _ _; rfl
  | succ fuel ih =>
      intro c ha hr hn
      have hp := Nat.two_pow_pos c.h
      have hfit : b.supers ≤ b.internal := H.fits
      unfold At at ha
      rw [Nat.add_mul, Nat.one_mul] at ha
      have e2 : 2 ^ (c.h + 1) = 2 ^ c.h + 2 ^ c.h := by rw [Nat.pow_succ]; omega
      have n1 : c.node ≠ 1 := by
        intro h1
        rw [h1, Nat.one_mul] at ha
        obtain ⟨e, he⟩ := H.pow
        have hlt : 2 ^ e < 2 * 2 ^ c.h := by omega
        have hgt : 2 * 2 ^ c.h < 2 * 2 ^ e := by omega
        have h1 : e < c.h + 1 := (Nat.pow_lt_pow_iff_right (by omega : 1 < 2)).mp (by rw [Nat.pow_succ]; omega)
        have h2 : c.h < e := (Nat.pow_lt_pow_iff_right (by omega : 1 < 2)).mp (by omega)
        omega
      show (do
        check (c.node ≠ 0)
        if c.node % 2 = 0 then do
          let right := c.right + 2 ^ c.h
          let (m, i) ← betterIf (right < last) b.superMin (c.node + 1) (c.min, c.idx)
          if right ≥ last - 1 then .ok ⟨c.node + 1, c.h, right, m, i⟩
          else upD b.superMin last fuel ⟨c.node / 2, c.h + 1, right, m, i⟩
        else upD b.superMin last fuel ⟨c.node / 2, c.h + 1, c.right, c.min, c.idx⟩) = (if c.node % 2 = 0 then do
          let right := c.right + 2 ^ c.h
          let (m, i) ← betterIf (right < last) b.superMin (c.node + 1) (c.min, c.idx)
          if right ≥ last - 1 then .ok ⟨c.node + 1, c.h, right, m, i⟩
          else up b.superMin last fuel ⟨c.node / 2, c.h + 1, right, m, i⟩
        else up b.superMin last fuel ⟨c.node / 2, c.h + 1, c.right, c.min, c.idx⟩)
      rw [check_bind (by omega)]
      by_cases hev : c.node % 2 = 0
      · rw [if_pos hev, if_pos hev]
        dsimp only
        apply M.bind_congr_ok
        intro ⟨m, i⟩ _
        dsimp only
        split
        · rfl
        · apply ih
          · unfold At
            dsimp only
            rw [Nat.pow_succ, Nat.mul_comm (2 ^ c.h) 2, ← Nat.mul_assoc, Nat.add_mul, Nat.one_mul, Nat.div_mul_cancel (by omega), Nat.add_mul]
            omega
          · dsimp only; omega
          · dsimp only; omega
      · rw [if_neg hev, if_neg hev]
        apply ih
        · unfold At
          dsimp only
          have : c.node / 2 + 1 = (c.node + 1) / 2 := by omega
          rw [this, Nat.pow_succ, Nat.mul_comm (2 ^ c.h) 2, ← Nat.mul_assoc, Nat.div_mul_cancel (by omega), Nat.add_mul]
          omega
        · exact hr
        · dsimp only; omega

theorem downD_eq (H : b.Rep) {last : Nat} (hl : last ≤ b.supers) : ∀ fuel c, At b c → c.right < last - 1 + 2 ^ c.h →
    2 ^ c.h ≤ c.right → downD b.superMin last fuel c = down b.superMin last fuel c := by
  intro fuel
  induction fuel with
  | zero => intro c _ _ _; rfl
  | succ fuel ih =>
      intro c ha h2 h3
      show (if c.right > last - 1 then do
          check (c.node < b.superMin.length)
          check (c.h > 0)
          let h := c.h - 1
          let left := 2 * c.node
          if c.right - 2 ^ h ≥ last - 1 then downD b.superMin last fuel ⟨left, h, c.right - 2 ^ h, c.min, c.idx⟩
          else do
            let (m, i) ← better b.superMin left (c.min, c.idx)
            downD b.superMin last fuel ⟨left + 1, h, c.right, m, i⟩
        else .ok c) = (if c.right > last - 1 then
          let h := c.h - 1
          let left := 2 * c.node
          if c.right - 2 ^ h ≥ last - 1 then down b.superMin last fuel ⟨left, h, c.right - 2 ^ h, c.min, c.idx⟩
          else do
            let (m, i) ← better b.superMin left (c.min, c.idx)
            down b.superMin last fuel ⟨left + 1, h, c.right, m, i⟩
        else .ok c)
      by_cases hgt : c.right > last - 1
      · rw [if_pos hgt, if_pos hgt]
        unfold At at ha
        obtain ⟨k, hk⟩ : ∃ k, c.h = k + 1 := by
          cases hh : c.h with
          | zero => rw [hh] at h2; simp at h2; omega
          | succ k => exact ⟨k, rfl⟩
        rw [hk] at ha h2 h3
        rw [Nat.add_mul, Nat.one_mul] at ha
        have hp := Nat.two_pow_pos k
        have e2 : 2 ^ (k + 1) = 2 ^ k + 2 ^ k := by rw [Nat.pow_succ]; omega
        have e1 : c.node * 2 ^ (k + 1) = 2 * c.node * 2 ^ k := by
          rw [Nat.pow_succ, Nat.mul_comm 2 c.node, Nat.mul_assoc, Nat.mul_comm 2 (2 ^ k)]
        have e3 : (2 * c.node + 1) * 2 ^ k = 2 * c.node * 2 ^ k + 2 ^ k := by rw [Nat.add_mul, Nat.one_mul]
        have e4 : (2 * c.node + 1 + 1) * 2 ^ k = 2 * c.node * 2 ^ k + 2 ^ k + 2 ^ k := by rw [Nat.add_mul, Nat.one_mul, e3]
        have hnode : c.node < b.superMin.length := by
          have : c.node ≤ c.node * 2 ^ (k + 1) := Nat.le_mul_of_pos_right _ (by omega)
          have hlen : b.superMin.length = b.internal + b.supers := H.len
          omega
        rw [check_bind hnode, check_bind (by omega)]
        dsimp only
        rw [hk, Nat.add_sub_cancel]
        by_cases hge : c.right - 2 ^ k ≥ last - 1
        · rw [if_pos hge, if_pos hge]
          apply ih
          · unfold At
            dsimp only
            omega
          · dsimp only; omega
          · dsimp only; omega
        · rw [if_neg hge, if_neg hge]
          apply M.bind_congr_ok
          intro ⟨m, i⟩ _
          dsimp only
          apply ih
          · unfold At
            dsimp only
            omega
          · dsimp only; omega
          · dsimp only; omega
      · rw [if_neg hgt, if_neg hgt]

theorem minSuperD_eq (H : b.Rep) {first last : Nat} (hfl : first ≤ last) (hl : last ≤ b.supers) (s : Int × Nat) :
    b.minSuperD first last s = b.minSuper first last s := by
  unfold minSuperD minSuper
  by_cases h0 : first = last
  · rw [if_pos h0, if_pos h0]
  rw [if_neg h0, if_neg h0]
  have hs0 : Span b (b.internal + first) 0 first first := ⟨by simp, by simp, by omega⟩
  have ht : b.superMin[b.internal + first]? = some (b.sme first) := H.leaf first (by unfold supers at hl; omega)
  rw [rd_of_getElem? ht, M.ok_bind, M.ok_bind]
  by_cases h1 : last - first = 1
  · rw [if_pos h1, if_pos h1]
  · rw [if_neg h1, if_neg h1]
    have hfit : b.supers ≤ b.internal := H.fits
    have hi := H.internal_pos
    have hpow : b.internal < 2 ^ b.internal := Nat.lt_two_pow_self
    have ha : At b ⟨b.internal + first, 0, first, b.sme first, b.internal + first⟩ := by unfold At; simp
    obtain ⟨c, u1, u2, u3, u4, u5, u6⟩ := up_spec H hl (first := first) (b.internal + 1) ⟨b.internal + first, 0, first, b.sme first, b.internal + first⟩
      ha (by dsimp only; rw [Nat.pow_succ]; omega) (by dsimp only; omega) (by dsimp only; omega) (by dsimp only; omega)
      ⟨first, 0, first, first, Best.single _ _, hs0, Best.single _ _⟩
    rw [upD_eq H hl _ _ ha (by dsimp only; omega) (by dsimp only; omega), u1, M.ok_bind, M.ok_bind]
    have hc0 : c.node ≠ 0 := by
      intro hc
      unfold At at u2
      rw [hc, Nat.zero_add, Nat.one_mul] at u2
      omega
    rw [check_bind hc0]
    obtain ⟨d, d1, d2, d3, d4, cov, d5, d6, d7⟩ := down_spec H hl (first := first) (c.h + 1) c u2 (by omega) u3 u4 u5 u6
    rw [downD_eq H hl _ _ u2 u4 (by omega), d1, M.ok_bind, M.ok_bind]
    unfold At at d2
    rw [Nat.add_mul, Nat.one_mul] at d2
    have hp := Nat.two_pow_pos d.h
    have hs : Span b d.node d.h (d.right + 1 - 2 ^ d.h) d.right := ⟨by omega, by omega, by omega⟩
    obtain ⟨m, i, m1, m2⟩ := better_spec H d5 hs (by omega) (by omega) d7
    have : betterIf (decide (d.right < last)) b.superMin d.node (d.min, d.idx) = .ok (m, i) := by
      unfold betterIf
      rw [if_pos (by simp; omega), m1]
    rw [this, M.ok_bind, M.ok_bind]
    dsimp only
    rw [check_bind d3]
    obtain ⟨p, k, lo, hi', b1, b2, b3⟩ := m2
    rw [d3] at b1
    by_cases hlt : m < s.1
    · rw [if_pos hlt, if_pos hlt]
      have hk : k < b.internal + 1 := by
        have h1 := b2.last
        have h2 := b2.full
        have : k < 2 ^ k := Nat.lt_two_pow_self
        omega
      have p1 := b1.lo_le
      have p2 := b1.le_hi
      have hv : sm b.rs.bv.bits b.rs.bv.size p = m := b1.val
      rw [leaf_spec H _ k i lo hi' m p hk b2 b3, M.ok_bind, M.ok_bind, rd_of_getElem? (H.leaf p (by unfold supers at hl; omega)), M.ok_bind,
        check_bind hv, Nat.add_sub_cancel_left, check_bind p1, check_bind (by omega)]
    · rw [if_neg hlt, if_neg hlt]

theorem inBlocksD_eq (H : b.Rep) (hP : b.Pos) {ba bb : Nat} (hab : ba < bb) (hl : 256 * bb ≤ b.rs.bv.size) (m0 : Int) :
    b.inBlocksD m0 ba bb = b.inBlocks m0 ba bb := by
  have hlen := H.rs.wf
  unfold wordsFor at hlen
  unfold inBlocksD inBlocks
  dsimp only
  by_cases hs : (ba + 1) / 32 = bb / 32
  · rw [if_pos hs, if_pos hs]
    exact inSuperD_eq H hP (by omega) (fun _ => ⟨by omega, by omega⟩) _
  · rw [if_neg hs, if_neg hs]
    obtain ⟨sa, hsa⟩ : ∃ sa, (ba + 1) / 32 = sa := ⟨_, rfl⟩
    obtain ⟨sb, hsb⟩ : ∃ sb, bb / 32 = sb := ⟨_, rfl⟩
    rw [hsa, hsb, inSuperD_eq H hP (first := ba + 1) (last := (sa + 1) * 32) (by omega) (fun _ => ⟨by omega, by omega⟩)]
    apply M.bind_congr_ok
    intro s _
    have hss : sb ≤ b.supers := by unfold supers; omega
    rw [minSuperD_eq H (by omega) hss]
    apply M.bind_congr_ok
    intro t ht
    have hif : inSuperIfD (decide (t.1 < m0)) b (t.2 * 32) ((t.2 + 1) * 32) s = inSuperIf (decide (t.1 < m0)) b (t.2 * 32) ((t.2 + 1) * 32) s := by
      unfold inSuperIfD inSuperIf
      by_cases hlt : t.1 < m0
      · rw [if_pos (by simpa using hlt), if_pos (by simpa using hlt)]
        have hr : sa + 1 ≤ t.2 ∧ t.2 < sb := by
          by_cases he : sa + 1 = sb
          · have : b.minSuper (sa + 1) sb (m0, 2 ^ 32 - 1) = .ok (m0, 2 ^ 32 - 1) := by unfold minSuper; rw [if_pos he]
            rw [this] at ht
            injection ht with ht
            rw [← ht] at hlt
            exact absurd hlt (by simp)
          · obtain ⟨m, p, c1, c2⟩ := minSuper_spec H (first := sa + 1) (last := sb) (by omega) hss (m0, 2 ^ 32 - 1)
            have cp1 := c1.lo_le
            have cp2 := c1.le_hi
            rw [ht] at c2
            rcases c2 with c2 | c2
            · injection c2 with c2
              split at c2
              · rw [c2]; dsimp only; omega
              · rw [c2] at hlt; exact absurd hlt (by simp)
            · injection c2 with c2
              rw [c2]; dsimp only; omega
        exact inSuperD_eq H hP (by omega) (fun _ => ⟨by omega, by omega⟩) _
      · rw [if_neg (by simpa using hlt), if_neg (by simpa using hlt)]
    rw [hif]
    apply M.bind_congr_ok
    intro s' _
    exact inSuperD_eq H hP (by omega) (fun _ => ⟨by omega, by omega⟩) _

theorem middleD_eq (H : b.Rep) (hP : b.Pos) {wa wb : Nat} (hab : wa < wb) (hb : 64 * wb < b.rs.bv.size) (s : Exc) :
    b.middleD wa wb s = b.middle wa wb s := by
  have hlen := H.rs.wf
  unfold wordsFor at hlen
  unfold middleD middle
  dsimp only
  by_cases hs : wa / 4 = wb / 4
  · rw [if_pos hs, if_pos hs]
    exact Exc.inBlockD_eq _ (by omega) (fun _ => by omega) _
  · rw [if_neg hs, if_neg hs]
    obtain ⟨ba, hba⟩ : ∃ ba, wa / 4 = ba := ⟨_, rfl⟩
    obtain ⟨bb, hbb⟩ : ∃ bb, wb / 4 = bb := ⟨_, rfl⟩
    rw [hba, hbb, Exc.inBlockD_eq _ (by omega) (fun _ => by omega)]
    apply M.bind_congr_ok
    intro s1 _
    rw [inBlocksD_eq H hP (by omega) (by omega)]
    apply M.bind_congr_ok
    intro k hk
    have hmb : b.inMinBlockD k s1 = b.inMinBlock k s1 := by
      unfold inMinBlockD inMinBlock
      by_cases hlt : k.1 < s1.min
      · rw [if_pos hlt, if_pos hlt]
        have hkp : ∃ p, k.2 = p ∧ ba + 1 ≤ p ∧ p < bb ∧ k.1 = b.bme p := by
          by_cases he : ba + 1 = bb
          · have hz : b.inBlocks s1.min ba bb = .ok (s1.min, 2 ^ 32 - 1) := by
              have hsame : ∀ (x y : Nat) t, x = y → b.inSuper x y t = .ok t := by
                intro x y t hxy; unfold inSuper; rw [if_pos hxy]
              unfold inBlocks
              dsimp only
              rw [if_pos (by rw [he]), hsame _ _ _ he]
            rw [hz] at hk
            injection hk with hk
            rw [← hk] at hlt
            exact absurd hlt (by simp)
          · obtain ⟨m, p, e1, e2⟩ := inBlocks_spec H (ba := ba) (bb := bb) (by omega) (by omega) s1.min
            rw [e2] at hk
            injection hk with hk
            unfold upd at hk
            have q1 := e1.lo_le
            have q2 := e1.le_hi
            have q3 := e1.val
            split at hk
            · rw [← hk]
              exact ⟨p, rfl, q1, by omega, q3.symm⟩
            · rw [← hk] at hlt
              exact absurd hlt (by simp)
        obtain ⟨p, p1, p2, p3, p4⟩ := hkp
        have p5 : 256 * (p + 1) ≤ b.rs.bv.size := by omega
        have p6 : 256 * p ≤ b.rs.bv.size := by omega
        have p7 : p * 4 ≤ (p + 1) * 4 := by omega
        have p8 : (p + 1) * 4 - p * 4 = 4 := by omega
        have p9 : p * 4 + 4 ≤ b.rs.bv.bits.length := by omega
        have pa : p * 4 / 4 = ((p + 1) * 4 - 1) / 4 := by omega
        have pb : 64 * (p * 4) = 256 * p := by omega
        have pc : 64 * (p * 4 + 4) = 256 * p + 256 := by omega
        rw [p1, blockExcessD_eq H.rs H.small p6 (hP _ p6), blockExcess_spec H.rs p6 H.small,
          M.ok_bind, M.ok_bind, Exc.inBlockD_eq _ p7 (fun _ => pa), p8]
        obtain ⟨t', m2, q2, s1', s2', s3'⟩ := Exc.inBlock_scan (ws := b.rs.bv.bits) 4 (p * 4) { s1 with cur := exW b.rs.bv.bits (256 * p) } p9 (by
          dsimp only; rw [pb]) (by omega)
        rw [s1', M.ok_bind]
        have hmin : t'.min = k.1 := by
          rw [pb, pc] at s2'
          obtain ⟨g, x, x1, x2, x3⟩ := bme_spec (b := b) (k := p) p5
          have y1 := g q2 s2'.lo_le s2'.le_hi
          have y2 := s2'.le x x1 x2
          have y3 := s2'.val
          have hm : m2 = b.bme p := Int.le_antisymm (by rw [x3]; exact y2) (by rw [← y3]; exact y1)
          rw [s3', hm, ← p4]
          dsimp only
          rw [if_pos hlt]
        rw [check_bind hmin]
      · rw [if_neg hlt, if_neg hlt]
    rw [hmb]
    apply M.bind_congr_ok
    intro s2 _
    have g1 : 256 * bb ≤ b.rs.bv.size := by omega
    rw [blockExcessD_eq H.rs H.small g1 (hP _ g1), blockExcess_spec H.rs g1 H.small, M.ok_bind, M.ok_bind]
    exact Exc.inBlockD_eq _ (by omega) (fun _ => by omega) _

/-- `excess_rmq` -/
theorem excessRmqD_eq (H : b.Rep) (hP : b.Pos) {a e : Nat} (hae : a ≤ e) (he : e ≤ b.rs.bv.size) :
    b.excessRmqD a e = b.excessRmq a e := by
  have hlen := H.rs.wf
  unfold wordsFor at hlen
  obtain ⟨m0, p0, res, best⟩ := excessRmq_spec H hae he
  unfold excessRmqD
  unfold excessRmq at res ⊢
  rw [excess_eq H (by omega), M.ok_bind] at res ⊢
  rw [check_bind hae, excessD_eq H (by omega), M.ok_bind]
  by_cases hae2 : a = e
  · rw [if_pos hae2, if_pos hae2]
  rw [if_neg hae2] at res
  rw [if_neg hae2, if_neg hae2]
  dsimp only at res ⊢
  obtain ⟨wa, hwa⟩ : ∃ wa, a / 64 = wa := ⟨_, rfl⟩
  obtain ⟨wb, hwb⟩ : ∃ wb, (e - 1) / 64 = wb := ⟨_, rfl⟩
  obtain ⟨r, hr⟩ : ∃ r, a % 64 = r := ⟨_, rfl⟩
  obtain ⟨n, hn⟩ : ∃ n, min (64 - r) (e - a) = n := ⟨_, rfl⟩
  rw [hwa, hwb, hr, hn] at res ⊢
  have hwl : wa < b.rs.bv.bits.length := by omega
  have hwbl : wb < b.rs.bv.bits.length := by omega
  rw [rd_ok hwl, M.ok_bind] at res ⊢
  rw [M.ok_bind]
  by_cases hw : wa = wb
  · rw [if_pos hw, if_pos hw]
  · rw [if_neg hw] at res
    rw [if_neg hw, if_neg hw]
    rw [middleD_eq H hP (wa := wa) (wb := wb) (by omega) (by omega)]
    apply M.bind_congr_ok
    intro s' hs'
    rw [hs', M.ok_bind, rd_ok hwbl, M.ok_bind] at res
    rw [rd_ok hwbl, M.ok_bind, M.ok_bind]
    injection res with res
    injection res with r1 r2
    have b1 := best.lo_le
    have b2 := best.le_hi
    have b3 := best.val
    rw [check_bind (by rw [r1]; exact b1), excessD_eq H (by rw [r1]; omega), M.ok_bind, check_bind (by rw [r1, r2]; exact b3.symm)]

end BP
end AC
