import Verif.Proofs.DebugRmqSearch
import Verif.Props.Rmq
/-!
# Range-minimum queries: the assertions hold
-/
namespace AC

namespace BVB

theorem reverseRem_64 : ∀ (ws : List W) (rem : W), reverseRem 64 ws rem = rem
  | [], _ => rfl
  | w :: ws, rem => by
      unfold reverseRem
      rw [if_neg (by omega)]
      exact reverseRem_64 ws rem

theorem reverseRem_last {shift : Nat} (hs : shift ≠ 64) (w : W) : ∀ (ws : List W) (rem : W), reverseRem shift (ws ++ [w]) rem = w >>> (64 - shift)
  | [], rem => by simp [reverseRem, hs]
  | x :: ws, rem => by
      rw [List.cons_append]
      unfold reverseRem
      rw [if_pos hs]
      exact reverseRem_last hs w ws _

/-- the assertion of `reverse` is that no bit beyond the size is set -/
theorem reverseRem_iff {v : BVB} (hl : v.bits.length = wordsFor v.size) :
    reverseRem (64 - v.size % 64) v.bits 0 = 0 ↔ ∀ i, v.size ≤ i → bitAt v.bits i = false := by
  have hbeyond : ∀ i, v.bits.length ≤ i / 64 → bitAt v.bits i = false := by
    intro i hi
    unfold bitAt
    rw [List.getD_eq_getElem?_getD, List.getElem?_eq_none hi]
    simp
  unfold wordsFor at hl
  by_cases hm : v.size % 64 = 0
  · rw [show 64 - v.size % 64 = 64 by omega, reverseRem_64]
    exact ⟨fun _ i hi => hbeyond i (by omega), fun _ => rfl⟩
  · have hne : v.bits ≠ [] := by
      intro h
      rw [h] at hl
      simp at hl
      omega
    obtain ⟨ws, w, e⟩ : ∃ ws w, v.bits = ws ++ [w] := ⟨_, _, (List.dropLast_concat_getLast hne).symm⟩
    have hwl : ws.length = v.size / 64 := by
      rw [e] at hl
      simp at hl
      omega
    have hbit : ∀ j, j < 64 → bitAt v.bits (64 * ws.length + j) = w.getLsbD j := by
      intro j hj
      unfold bitAt
      rw [show (64 * ws.length + j) / 64 = ws.length by omega, show (64 * ws.length + j) % 64 = j by omega, e, List.getD_eq_getElem?_getD]
      simp
    rw [e, reverseRem_last (by omega), show 64 - (64 - v.size % 64) = v.size % 64 by omega, ← e]
    constructor
    · intro h i hi
      by_cases hb : v.bits.length ≤ i / 64
      · exact hbeyond i hb
      · have hj : i = 64 * ws.length + i % 64 := by omega
        rw [hj, hbit _ (by omega)]
        have hk : i % 64 = v.size % 64 + (i % 64 - v.size % 64) := by omega
        rw [hk, ← BitVec.getLsbD_ushiftRight, h]
        simp
    · intro h
      apply BitVec.eq_of_getLsbD_eq
      intro j hj
      rw [BitVec.getLsbD_ushiftRight, show (0 : W).getLsbD j = false from BitVec.getLsbD_zero]
      by_cases hk : v.size % 64 + j < 64
      · rw [← hbit _ hk]
        exact h _ (by omega)
      · exact BitVec.getLsbD_of_ge _ _ (by omega)

theorem reverseD_eq {v : BVB} (h : v.WF) : v.reverseD = .ok v.reverse := by
  unfold reverseD
  exact check_bind ((reverseRem_iff h.len).mpr h.pad) _

end BVB

namespace BP

theorem buildD_eq {v : BVB} (hv : v.WF) (after : W) (h1 h0 : Bool) (hsz : v.size < 2 ^ 31)
    (hp : ∀ i, i ≤ v.size → 0 ≤ exW v.bits i) : buildD (BV.build v after) h1 h0 = build (BV.build v after) h1 h0 := by
  obtain ⟨r, r1, r2, r3⟩ := RS.build_spec hv after h1 h0 (by omega)
  unfold buildD build
  have hs : r.bv.size = v.size := by rw [r2]; rfl
  have hb : r.bv.bits = v.bits := by rw [r2]; rfl
  rw [r1, M.ok_bind, M.ok_bind]
  split
  · rfl
  · rename_i hz
    have hz : ¬ v.size = 0 := hz
    exact buildTreeD_eq r3 (by omega) (by omega) (fun i hi => by rw [hb]; exact hp i (by omega))

theorem buildD_abort {v : BVB} (hv : v.WF) (after : W) (h1 h0 : Bool) (hsz : v.size < 2 ^ 31)
    {i : Nat} (hi : i ≤ v.size) (hp : exW v.bits i < 0) : buildD (BV.build v after) h1 h0 = .error .aborted := by
  obtain ⟨r, r1, r2, r3⟩ := RS.build_spec hv after h1 h0 (by omega)
  unfold buildD
  have hs : r.bv.size = v.size := by rw [r2]; rfl
  have hb : r.bv.bits = v.bits := by rw [r2]; rfl
  have hz : ¬ v.size = 0 := by
    intro hc
    have : i = 0 := by omega
    rw [this, exW_zero] at hp
    omega
  rw [r1, M.ok_bind, if_neg (show ¬ (BV.build v after).size = 0 from hz)]
  exact buildTreeD_abort r3 (by omega) (by omega) (i := i) (by omega) (by rw [hb]; exact hp)

end BP

namespace CT

/-- no prefix of the sequence of a tree has more closing than opening parentheses -/
theorem Rep.pos {t : BP} {v : List Nat} (H : Rep t v) : t.Pos := by
  intro q hq
  have hsz := H.size
  obtain ⟨n, hN⟩ : ∃ n, n = v.length := ⟨_, rfl⟩
  rw [← hN] at hsz
  obtain ⟨z, hz⟩ : ∃ z : Nat → Nat, z = cnt (fun i => !bitAt t.rs.bv.bits i) := ⟨_, rfl⟩
  have hzp : ∀ j, j ≤ n → z (AC.CT.pos v j) = n - j := fun j hj => by rw [hz]; exact (H.zero j (by omega)).2.trans (by omega)
  have hzs : ∀ j, j ≤ n → z (AC.CT.pos v j + 1) = n - j + 1 := fun j hj => by
    rw [← hzp j hj, hz, cnt_succ, (H.zero j (by omega)).1]; rfl
  have hmono : ∀ p q, p ≤ q → z p ≤ z q := fun p q h => by rw [hz]; exact cnt_mono _ h
  have hE : exW t.rs.bv.bits q = (q : Int) - 2 * (z q : Int) := by
    unfold exW exc
    have := cnt_not (bitAt t.rs.bv.bits) q
    rw [hz]
    omega
  have d0 : dep v 0 = 0 := by have := dep_le v 0; omega
  have hp0 : AC.CT.pos v 0 = 2 * n + 1 := by unfold AC.CT.pos; omega
  have htop : z q ≤ n + 1 := by
    have h1 := hmono q (AC.CT.pos v 0 + 1) (by omega)
    rw [hzs 0 (by omega)] at h1
    omega
  rw [hE]
  by_cases h0 : z q = 0
  · omega
  · -- the last zero before `q` is the one of value `n + 1 - z q`
    have hlt : AC.CT.pos v (n + 1 - z q) < q := by
      apply Nat.lt_of_not_le
      intro hc
      have h1 := hmono _ _ hc
      rw [hzp (n + 1 - z q) (by omega)] at h1
      omega
    have := dep_le v (n + 1 - z q)
    unfold AC.CT.pos at hlt
    omega

theorem finalizeD_eq (v : List Nat) : finalizeD (v.foldl push ⟨[], BVB.empty⟩) = .ok (finalize (v.foldl push ⟨[], BVB.empty⟩)) := by
  obtain ⟨B, h⟩ := build_inv v
  generalize v.foldl push ⟨[], BVB.empty⟩ = b at h
  have h1 := drain_spec b.stack (b.bp.pushBack false) _ (AC.Props.holds_push _ _ _ h.holds)
  exact BVB.reverseD_eq (AC.Props.holds_push _ _ true h1).wf

theorem buildD_eq (v : List Nat) (after : W) (hv : v.length < 2 ^ 30 - 1) : buildD v after = build v after := by
  obtain ⟨t, t1, t2⟩ := build_spec v after hv
  obtain ⟨B, b1, b2, b3, b4⟩ := finalize_spec v
  have hs : (finalize (v.foldl push ⟨[], BVB.empty⟩)).size = 2 * v.length + 2 := by rw [b1.size, List.length_reverse, b2]
  obtain ⟨t', e1, e2, e3⟩ := BP.build_spec b1.wf after false true (by omega) (by omega)
  have het : t' = t := by
    unfold build at t1
    rw [e1] at t1
    injection t1
  subst het
  unfold buildD
  rw [finalizeD_eq, M.ok_bind]
  apply BP.buildD_eq b1.wf after false true (by omega)
  intro i hi
  have := t2.pos i (by rw [e2]; exact hi)
  rw [e2] at this
  exact this

theorem sub64_eq {x y : Nat} (h : y ≤ x) (hx : x < 2 ^ 64) : sub64 x y = x - y := by
  unfold sub64
  omega

theorem sub64_wrap {x y : Nat} (h : x < y) (hy : y < 2 ^ 64) : sub64 x y = 2 ^ 64 + x - y := by
  unfold sub64
  omega

/-- `rmq(a, b)` -/
theorem rmqD_eq {t : BP} {v : List Nat} (H : Rep t v) {a b : Nat} (hab : a ≤ b) (hb : b < v.length) : rmqD t a b = rmq t a b := by
  obtain ⟨d, hd⟩ := Nat.exists_eq_add_of_le hab
  obtain ⟨m, hm, m1, m2, m3, m4⟩ := AC.Props.leftmost_min v a d (by omega)
  have res := rmq_spec H hab hb m1 (by omega) (fun k hk hak => m3 k (by omega) hak) m4
  unfold rmqD
  unfold rmq at res ⊢
  rw [check_bind hab]
  by_cases hne : a = b
  · rw [if_pos hne, if_pos hne]
  rw [if_neg hne] at res
  rw [if_neg hne, if_neg hne]
  have hsz := H.size
  have hsm := H.rep.small
  have hn : size t = v.length := by unfold size; omega
  obtain ⟨n, hN⟩ : ∃ n, n = v.length := ⟨_, rfl⟩
  rw [← hN] at hsz hn
  dsimp only at res ⊢
  rw [hn, if_neg (by omega)] at res
  rw [hn, if_neg (by omega), sub64_eq (show b ≤ n by omega) (by omega), sub64_eq (show 1 ≤ n - b by omega) (by omega),
    sub64_eq (show a ≤ n by omega) (by omega)]
  obtain ⟨z, hz⟩ : ∃ z : Nat → Nat, z = cnt (fun i => !bitAt t.rs.bv.bits i) := ⟨_, rfl⟩
  have hzp : ∀ j, j ≤ n → z (AC.CT.pos v j) = n - j := fun j hj => by rw [hz]; exact (H.zero j (by omega)).2.trans (by omega)
  have hzs : ∀ j, j ≤ n → z (AC.CT.pos v j + 1) = n - j + 1 := fun j hj => by
    rw [← hzp j hj, hz, cnt_succ, (H.zero j (by omega)).1]; rfl
  have hmono : ∀ p q, p ≤ q → z p ≤ z q := fun p q h => by rw [hz]; exact cnt_mono _ h
  have hposlt : ∀ j, j ≤ n → AC.CT.pos v j < 2 * n + 2 := fun j hj => by
    have := dep_le v j
    unfold AC.CT.pos; omega
  have hselD : ∀ j, j ≤ n → t.rs.select0D (n - j) = .ok (AC.CT.pos v j) ∧ t.rs.select0 (n - j) = .ok (AC.CT.pos v j) := by
    intro j hj
    have hlt : n - j < cnt (fun i => !bitAt t.rs.bv.bits i) t.rs.bv.size := by
      have h1 := hzs j hj
      have h2 := hmono (AC.CT.pos v j + 1) t.rs.bv.size (by have := hposlt j hj; omega)
      rw [hz] at h1 h2
      omega
    rw [RS.select0D_eq H.rep.rs hlt]
    obtain ⟨p, p1, p2, p3⟩ := RS.select0_spec H.rep.rs hlt
    have : p = AC.CT.pos v j := by
      apply p3.unique
      refine ⟨?_, ?_⟩
      · dsimp only
        rw [(H.zero j (by omega)).1]; rfl
      · exact (H.zero j (by omega)).2.trans (by omega)
    rw [p1, this]
    exact ⟨rfl, rfl⟩
  have hE : ∀ q, exW t.rs.bv.bits q = (q : Int) - 2 * (z q : Int) := by
    intro q
    unfold exW exc
    have := cnt_not (bitAt t.rs.bv.bits) q
    rw [hz]
    omega
  obtain ⟨s1, s1'⟩ := hselD (b + 1) (by omega)
  obtain ⟨s2, s2'⟩ := hselD b (by omega)
  obtain ⟨s3, s3'⟩ := hselD a (by omega)
  rw [show n - (b + 1) = n - b - 1 by omega] at s1 s1'
  rw [s1', M.ok_bind, s2', M.ok_bind, s3', M.ok_bind] at res
  rw [s1, s1', M.ok_bind, M.ok_bind]
  -- the excess after the zero
  have hq1 := hposlt (b + 1) (by omega)
  have hex1 : exW t.rs.bv.bits (AC.CT.pos v (b + 1) + 1) = (AC.CT.pos v (b + 1) : Int) - 2 * ((n - b - 1 : Nat) : Int) - 1 := by
    rw [hE, hzs (b + 1) (by omega)]
    omega
  have hd1 := dep_le v (b + 1)
  have hT : int32 ((AC.CT.pos v (b + 1) : Int) - 2 * ((n - b - 1 : Nat) : Int)) = (AC.CT.pos v (b + 1) : Int) - 2 * ((n - b - 1 : Nat) : Int) := by
    apply int32_id
    · unfold AC.CT.pos; omega
    · unfold AC.CT.pos; omega
  rw [BP.excessD_eq H.rep (by omega), M.ok_bind, check_bind (by rw [hT, hex1]), s2, s2', M.ok_bind, M.ok_bind, s3, s3', M.ok_bind, M.ok_bind]
  have hxy : AC.CT.pos v b < AC.CT.pos v a := by
    apply Nat.lt_of_not_le
    intro hc
    have := hmono _ _ hc
    rw [hzp a (by omega), hzp b (by omega)] at this
    omega
  have hq2 := hposlt a (by omega)
  obtain ⟨e, w, r1, r2⟩ := BP.excessRmq_spec H.rep (a := AC.CT.pos v b) (e := AC.CT.pos v a) (by omega) (by omega)
  rw [BP.excessRmqD_eq H.rep H.pos (by omega) (by omega)]
  rw [r1, M.ok_bind] at res
  rw [r1, M.ok_bind, M.ok_bind]
  dsimp only at res ⊢
  -- the bit before the leftmost minimum
  have w1 := r2.lo_le
  have w2 := r2.le_hi
  have hwne : w ≠ AC.CT.pos v b := by
    intro hc
    have h1 := r2.le (AC.CT.pos v b + 1) (by omega) (by omega)
    have h2 := r2.val
    rw [hc, hE, hzp b (by omega)] at h2
    rw [hE, hzs b (by omega)] at h1
    omega
  have hbit : bitAt t.rs.bv.bits (w - 1) = false := by
    have h1 := r2.left (w - 1) (by omega) (by omega)
    have h2 := r2.val
    have h3 : exW t.rs.bv.bits (w - 1 + 1) = exW t.rs.bv.bits (w - 1) + (if bitAt t.rs.bv.bits (w - 1) then 1 else -1) := exc_succ _ _
    rw [show w - 1 + 1 = w by omega] at h3
    cases hb : bitAt t.rs.bv.bits (w - 1) with
    | false => rfl
    | true => rw [hb] at h3; simp at h3; omega
  have hwf := H.rep.rs.wf
  unfold wordsFor at hwf
  have hget : t.rs.bv.getD' (sub64 w 1) = .ok false := by
    rw [sub64_eq (by omega) (by omega)]
    unfold BV.getD'
    rw [check_bind (by omega), BV.get_spec _ _ (by omega), hbit]
  rw [hget, M.ok_bind, check_bind rfl]
  injection res with res
  rw [res, check_bind m1, check_bind (by omega)]

/-- `rmq(a, b)` with `b` beyond the last value -/
theorem rmqD_beyond {t : BP} {v : List Nat} (H : Rep t v) {a b : Nat} (hab : a < b) (hb : v.length ≤ b) (h64 : b < 2 ^ 64) :
    rmqD t a b = .error .aborted := by
  have hsz := H.size
  have hsm := H.rep.small
  obtain ⟨n, hN⟩ : ∃ n, n = v.length := ⟨_, rfl⟩
  have hn : size t = n := by unfold size; omega
  have d0 : dep v 0 = 0 := by have := dep_le v 0; omega
  have hp0 : AC.CT.pos v 0 = 2 * n + 1 := by unfold AC.CT.pos; omega
  obtain ⟨z0, z1⟩ := H.zero 0 (by omega)
  rw [hp0] at z0 z1
  have hall : cnt (fun i => !bitAt t.rs.bv.bits i) t.rs.bv.size = n + 1 := by
    rw [hsz, show 2 * v.length + 2 = 2 * n + 1 + 1 by omega, cnt_succ, z1, z0]
    simp; omega
  unfold rmqD
  rw [check_bind (show a ≤ b by omega), if_neg (by omega)]
  dsimp only
  rw [hn]
  by_cases hlast : b = 2 ^ 64 - 1
  · -- the first subtraction wraps around twice, to `n`
    have e1 : sub64 n b = n + 1 := by unfold sub64; omega
    have e2 : sub64 (n + 1) 1 = n := by unfold sub64; omega
    have hlt : n < cnt (fun i => !bitAt t.rs.bv.bits i) t.rs.bv.size := by omega
    obtain ⟨p, p1, p2, p3⟩ := RS.select0_spec H.rep.rs hlt
    have hp : p = 2 * n + 1 := by
      apply p3.unique
      refine ⟨?_, by rw [z1]; omega⟩
      dsimp only
      rw [z0]; rfl
    subst hp
    rw [e1, e2, RS.select0D_eq H.rep.rs hlt, p1, M.ok_bind, BP.excessD_eq H.rep (by omega), M.ok_bind]
    by_cases hc : int32 (((2 * n + 1 : Nat) : Int) - 2 * (n : Int)) - 1 = exW t.rs.bv.bits (2 * n + 1 + 1)
    · rw [check_bind hc, RS.select0D_guard H.rep.rs (by omega)]; rfl
    · exact RS.check_false hc
  · have e1 : n < sub64 (sub64 n b) 1 := by unfold sub64; omega
    rw [RS.select0D_guard H.rep.rs (by omega)]; rfl

end CT
end AC
