import Verif.Proofs.CefBuild
import Verif.Proofs.BitRead
/-! # Iterating over Elias-Fano lists inside a shared bit vector -/
namespace AC.CEF

theorem getWord56_any (v : BV) (pos : Nat) (h : pos ≤ 64 * v.bits.length) : ∃ w, v.getWord56 pos = .ok w := by
  unfold BV.getWord56 BV.memWord
  have e0 : pos / 8 / 8 = pos / 64 := by omega
  have hw : pos / 8 / 8 < (v.bits ++ [v.after]).length := by simp; omega
  simp only [rd_ok hw, M.ok_bind]
  split
  · exact ⟨_, rfl⟩
  · have hw : pos / 8 / 8 + 1 < (v.bits ++ [v.after]).length := by simp; omega
    simp only [rd_ok hw, M.ok_bind]
    exact ⟨_, rfl⟩

theorem cnt_from (f : Nat → Bool) (c x : Nat) (h : c ≤ x) :
    cnt (fun i => f i && decide (c ≤ i)) x + cnt f c = cnt f x := by
  obtain ⟨n, rfl⟩ := Nat.exists_eq_add_of_le h
  have hcz : cnt (fun i => f i && decide (c ≤ i)) c = 0 :=
    cnt_zero (fun i hi => by rw [decide_eq_false (by omega)]; simp)
  rw [cnt_add, cnt_add, hcz]
  rw [cnt_congr (f := fun i => f (c + i) && decide (c ≤ c + i)) (g := fun i => f (c + i))
    (fun i hi => by rw [decide_eq_true (by omega)]; simp)]
  omega

/-- the enumerator has left the ones of the first `p` elements behind -/
def Ready (v : BV) (o : Off) (vs : List Nat) (he : UI) (p c : Nat) : Prop :=
  he.Inv v c ∧ o.hb ≤ c ∧ c ≤ o.lo ∧ p ≤ vs.length ∧ (∀ j, j < p → o.hb + hi o.l vs j < c) ∧
    (∀ j, p ≤ j → j < vs.length → c ≤ o.hb + hi o.l vs j)

section
variable {v : BV} {base u : Nat} {vs : List Nat} {o : Off}

theorem rank {bits : List W} (h : High o vs vs.length bits) (hv : Valid o.univ vs) :
    ∀ q r, q ≤ o.hlen → r ≤ vs.length → (∀ j, j < r → hi o.l vs j < q) →
      (∀ j, r ≤ j → j < vs.length → q ≤ hi o.l vs j) → cnt (fun i => bitAt bits (o.hb + i)) q = r := by
  intro q
  induction q with
  | zero =>
      intro r _ _ h1 _
      have : r = 0 := by
        cases r with
        | zero => rfl
        | succ r => have := h1 0 (by omega); omega
      subst this; rfl
  | succ q ih =>
      intro r hq hr h1 h2
      rw [cnt_succ]
      cases hb : bitAt bits (o.hb + q) with
      | false =>
          rw [ih r (by omega) hr ?_ (fun j hj hj2 => by have := h2 j hj hj2; omega)]
          · rfl
          · intro j hj
            have h3 := h1 j hj
            have : hi o.l vs j ≠ q := by
              intro hc
              have := (h q (by omega)).mpr ⟨j, by omega, hc.symm⟩
              rw [hb] at this; cases this
            omega
      | true =>
          obtain ⟨j, hj, e⟩ := (h q (by omega)).mp hb
          have hjr : j < r := by
            apply Nat.lt_of_not_le
            intro hc
            have := h2 j hc hj; omega
          have hjr2 : j + 1 = r := by
            apply Classical.byContradiction
            intro hc
            have h3 := h1 (j + 1) (by omega)
            have h4 := hi_lt hv o.l (i := j) (j := j + 1) (by omega) (by omega)
            omega
          rw [ih j (by omega) (by omega)]
          · simp; omega
          · intro i hi'
            have := hi_lt hv o.l (i := i) (j := j) hi' hj
            omega
          · intro i hi' hi2
            rcases Nat.lt_or_eq_of_le hi' with h5 | h5
            · have := hi_lt hv o.l (i := j) (j := i) h5 hi2; omega
            · subst h5; omega

/-- the setting of the lemmas on iterators: the list is stored in the bits of `v` -/
structure Ctx (v : BV) (base u : Nat) (vs : List Nat) (o : Off) : Prop where
  rep : Rep v.bits base u vs
  off : o = offsets base u vs.length

theorem Ctx.ok (x : Ctx v base u vs o) : OffOk o vs := by
  rw [x.off]; exact offsets_ok base u vs x.rep.valid

theorem Ctx.univ (x : Ctx v base u vs o) : o.univ = u := by rw [x.off]; rfl

theorem Ctx.valid (x : Ctx v base u vs o) : Valid o.univ vs := by rw [x.univ]; exact x.rep.valid

theorem Ctx.high (x : Ctx v base u vs o) : High o vs vs.length v.bits := by rw [x.off]; exact x.rep.high

theorem Ctx.low (x : Ctx v base u vs o) : Low o vs vs.length v.bits := by rw [x.off]; exact x.rep.low

theorem Ctx.fits (x : Ctx v base u vs o) : o.last ≤ 64 * v.bits.length := by rw [x.off]; exact x.rep.fits

theorem Ctx.in' (x : Ctx v base u vs o) {j : Nat} (hj : j < vs.length) :
    o.hb + hi o.l vs j + 1 < o.lo ∧ o.lo ≤ 64 * v.bits.length := by
  have := x.ok.hi_lt x.valid hj
  have := x.ok.lo
  have := x.fits
  have := x.ok.order
  omega

theorem Ctx.cnt_at (x : Ctx v base u vs o) (q r : Nat) (h0 : o.hb ≤ q) (hq : q ≤ o.lo) (hr : r ≤ vs.length)
    (h1 : ∀ j, j < r → o.hb + hi o.l vs j < q) (h2 : ∀ j, r ≤ j → j < vs.length → q ≤ o.hb + hi o.l vs j) :
    cnt (bitAt v.bits) q = cnt (bitAt v.bits) o.hb + r := by
  obtain ⟨m, rfl⟩ := Nat.exists_eq_add_of_le h0
  have := x.ok.lo
  rw [cnt_add, rank x.high x.valid m r (by omega) hr (fun j hj => by have := h1 j hj; omega)
    (fun j hj hj2 => by have := h2 j hj hj2; omega)]

theorem Ctx.one (x : Ctx v base u vs o) {j : Nat} (hj : j < vs.length) : bitAt v.bits (o.hb + hi o.l vs j) = true := by
  have := x.ok.hi_lt x.valid hj
  exact (x.high _ (by omega)).mpr ⟨j, hj, rfl⟩

theorem Ctx.zero (x : Ctx v base u vs o) {i : Nat} (h0 : o.hb ≤ i) (h1 : i < o.lo)
    (h2 : ∀ j, j < vs.length → i ≠ o.hb + hi o.l vs j) : bitAt v.bits i = false := by
  cases hb : bitAt v.bits i with
  | false => rfl
  | true =>
      obtain ⟨m, rfl⟩ := Nat.exists_eq_add_of_le h0
      have := x.ok.lo
      obtain ⟨j, hj, e⟩ := (x.high m (by omega)).mp hb
      exact absurd (by omega) (h2 j hj)

theorem Ctx.readLow (x : Ctx v base u vs o) {p : Nat} (hp : p < vs.length) :
    ∃ w, CEI.readLow v o p = .ok w ∧ w.toNat = vs.getD p 0 % 2 ^ o.l := by
  have hl := x.ok.l56
  have hr := low_room x.ok p hp
  have hf := x.fits
  unfold CEI.readLow
  by_cases h0 : o.l = 0
  · obtain ⟨w, w1⟩ := getWord56_any v (o.lo + p * o.l) (by omega)
    rw [w1]
    refine ⟨_, rfl, ?_⟩
    rw [h0, BitVec.toNat_and, maskW_toNat _ (by omega)]
    simp [Nat.mod_one]
  · obtain ⟨w, w1, w2⟩ := v.getWord56_mask (o.lo + p * o.l) o.l (by omega) (by omega) (by omega)
    rw [w1]
    exact ⟨_, rfl, by rw [w2, x.low p hp]⟩

theorem Ctx.compose (x : Ctx v base u vs o) {p : Nat} (hp : p < vs.length) (w : W) (hw : w.toNat = vs.getD p 0 % 2 ^ o.l) :
    CEI.compose o (o.hb + hi o.l vs p) p w = vs.getD p 0 := by
  unfold CEI.compose
  have hu := x.valid.le_u hp
  have hs := x.valid.small
  have hl := x.ok.l56
  have hv : (BitVec.ofNat 64 (vs.getD p 0)).toNat = vs.getD p 0 := by
    rw [BitVec.toNat_ofNat, Nat.mod_eq_of_lt (by omega)]
  have e : o.hb + hi o.l vs p - o.hb - p - 1 = vs.getD p 0 / 2 ^ o.l := by
    have := Nat.zero_le (vs.getD p 0 / 2 ^ o.l)
    unfold hi; omega
  rw [e]
  have := EF.value_eq o.l (BitVec.ofNat 64 (vs.getD p 0)) w (by omega) (by
    intro k hk
    rw [← BitVec.testBit_toNat, hw, Nat.testBit_mod_two_pow, ← BitVec.testBit_toNat, hv, Bool.and_comm])
  rw [hv] at this
  rw [this, hv]

theorem Ctx.next (x : Ctx v base u vs o) {he : UI} {p c : Nat} (h : Ready v o vs he p c) (hp : p < vs.length) :
    ∃ he', he.next v = .ok he' ∧ he'.position = o.hb + hi o.l vs p ∧
      Ready v o vs he' (p + 1) (o.hb + hi o.l vs p + 1) := by
  obtain ⟨h1, h2, h3, h4, h5, h6⟩ := h
  have hin := x.in' hp
  obtain ⟨he', e1, e2, e3⟩ := UI.next_spec v he c (o.hb + hi o.l vs p) h1 (by omega) (h6 p (Nat.le_refl _) hp) (x.one hp)
    (by
      intro i hi1 hi2
      apply x.zero (by omega) (by omega)
      intro j hj hc
      rcases Nat.lt_or_ge j p with h7 | h7
      · have := h5 j h7; omega
      · rcases Nat.lt_or_eq_of_le h7 with h8 | h8
        · have := hi_lt x.valid o.l h8 hj; omega
        · subst h8; omega)
  refine ⟨he', e1, e2, e3, by omega, by omega, hp, ?_, ?_⟩
  · intro j hj
    rcases Nat.lt_or_eq_of_le (Nat.le_of_lt_succ hj) with h8 | h8
    · have := hi_lt x.valid o.l h8 hp; omega
    · subst h8; omega
  · intro j hj hj2
    have := hi_lt x.valid o.l (i := p) (j := j) (by omega) hj2; omega

theorem Ctx.readNext (x : Ctx v base u vs o) {he : UI} {p c : Nat} (h : Ready v o vs he p c) (hp : p < vs.length) :
    ∃ he', CEI.readNext v o p he = .ok (vs.getD p 0, he') ∧ he'.position = o.hb + hi o.l vs p ∧
      Ready v o vs he' (p + 1) (o.hb + hi o.l vs p + 1) := by
  obtain ⟨he', e1, e2, e3⟩ := x.next h hp
  obtain ⟨w, w1, w2⟩ := x.readLow hp
  unfold CEI.readNext
  rw [e1]
  simp only [M.ok_bind, w1]
  rw [e2, x.compose hp w w2]
  exact ⟨he', rfl, e2, e3⟩

theorem Ctx.skip (x : Ctx v base u vs o) {he : UI} {p c k : Nat} (h : Ready v o vs he p c) (hp : p + k < vs.length) :
    ∃ he', he.skip v k = .ok he' ∧ Ready v o vs he' (p + k) (o.hb + hi o.l vs (p + k)) := by
  obtain ⟨h1, h2, h3, h4, h5, h6⟩ := h
  have hin := x.in' hp
  have hcq := h6 (p + k) (by omega) hp
  have hc := x.cnt_at c p h2 h3 h4 h5 h6
  have hlt : ∀ j, j < p + k → o.hb + hi o.l vs j < o.hb + hi o.l vs (p + k) := by
    intro j hj; have := hi_lt x.valid o.l hj hp; omega
  have hge : ∀ j, p + k ≤ j → j < vs.length → o.hb + hi o.l vs (p + k) ≤ o.hb + hi o.l vs j := by
    intro j hj hj2
    rcases Nat.lt_or_eq_of_le hj with h8 | h8
    · have := hi_lt x.valid o.l h8 hj2; omega
    · subst h8; omega
  have hq := x.cnt_at (o.hb + hi o.l vs (p + k)) (p + k) (by omega) (by omega) (by omega) hlt hge
  have hf := cnt_from (bitAt v.bits) c (o.hb + hi o.l vs (p + k)) hcq
  obtain ⟨he', e1, e2, e3⟩ := UI.skip_spec v he c k (o.hb + hi o.l vs (p + k)) h1 (by omega)
    ⟨by simp only; rw [x.one hp, decide_eq_true hcq]; rfl, by omega⟩
  exact ⟨he', e1, e3, by omega, by omega, by omega, hlt, hge⟩

theorem Split.hi_lt {l z r : Nat} (h : Split l vs z r) (j : Nat) (hj : j < r) : hi l vs j < z + r := by
  have := h.lt j hj
  unfold hi; omega

theorem Split.lt_hi {l z r : Nat} (h : Split l vs z r) (j : Nat) (hj : r ≤ j) (hj2 : j < vs.length) : z + r < hi l vs j := by
  have := h.ge j hj hj2
  unfold hi; omega

theorem exists_split {u : Nat} (hv : Valid u vs) (l z : Nat) : ∃ r, Split l vs z r := by
  have : ∀ m, m ≤ vs.length → ∃ r, r ≤ m ∧ (∀ j, j < r → vs.getD j 0 / 2 ^ l < z) ∧
      (∀ j, r ≤ j → j < m → z ≤ vs.getD j 0 / 2 ^ l) := by
    intro m
    induction m with
    | zero => intro _; exact ⟨0, by omega, by intro j hj; omega, by intro j _ hj; omega⟩
    | succ m ih =>
        intro hm
        obtain ⟨r, r1, r2, r3⟩ := ih (by omega)
        by_cases hz : vs.getD m 0 / 2 ^ l < z
        · have hrm : r = m := by
            apply Classical.byContradiction
            intro hc
            have h1 := r3 r (Nat.le_refl _) (by omega)
            have h2 := Nat.div_le_div_right (c := 2 ^ l) (hv.le (i := r) (j := m) (by omega) (by omega))
            omega
          subst hrm
          refine ⟨r + 1, by omega, ?_, by intro j h1 h2; omega⟩
          intro j hj
          rcases Nat.lt_or_eq_of_le (Nat.le_of_lt_succ hj) with h8 | h8
          · exact r2 j h8
          · subst h8; exact hz
        · refine ⟨r, by omega, r2, ?_⟩
          intro j hj hj2
          rcases Nat.lt_or_eq_of_le (Nat.le_of_lt_succ hj2) with h8 | h8
          · exact r3 j hj h8
          · subst h8; omega
  obtain ⟨r, r1, r2, r3⟩ := this vs.length (Nat.le_refl _)
  exact ⟨r, r1, r2, r3⟩

/-- moving to the zero that separates the high parts below `z` from the others -/
theorem Ctx.skip0 (x : Ctx v base u vs o) {he : UI} {p c z r k : Nat} (h : Ready v o vs he p c) (hs : Split o.l vs z r)
    (hz : z ≤ o.univ / 2 ^ o.l) (hP : he.position ≤ c) (hcq : c ≤ o.hb + (z + r))
    (hk : k + r + he.position = o.hb + (z + r) + p) :
    ∃ he', he.skip0 v k = .ok he' ∧ he'.position = o.hb + (z + r) ∧ Ready v o vs he' r (o.hb + (z + r)) := by
  obtain ⟨h1, h2, h3, h4, h5, h6⟩ := h
  have hhl := x.ok.hlen
  have hlo := x.ok.lo
  have hr := hs.le
  have hfit := x.fits
  have hord := x.ok.order
  have hqlo : o.hb + (z + r) < o.lo := by omega
  have hc := x.cnt_at c p h2 h3 h4 h5 h6
  have hlt : ∀ j, j < r → o.hb + hi o.l vs j < o.hb + (z + r) := by
    intro j hj; have := hs.hi_lt j hj; omega
  have hge : ∀ j, r ≤ j → j < vs.length → o.hb + (z + r) ≤ o.hb + hi o.l vs j := by
    intro j hj hj2; have := hs.lt_hi j hj hj2; omega
  have hq := x.cnt_at (o.hb + (z + r)) r (by omega) (by omega) hr hlt hge
  have hf := cnt_from (bitAt v.bits) c (o.hb + (z + r)) hcq
  have hzero : bitAt v.bits (o.hb + (z + r)) = false := by
    apply x.zero (by omega) hqlo
    intro j hj hcc
    rcases Nat.lt_or_ge j r with h7 | h7
    · have := hs.hi_lt j h7; omega
    · have := hs.lt_hi j h7 hj; omega
  obtain ⟨he', e1, e2, e3⟩ := UI.skip0_spec v he c k (o.hb + (z + r)) h1 (by omega) (by
    refine ⟨?_, ?_⟩
    · simp only
      rw [hzero, decide_eq_true (show he.position ≤ o.hb + (z + r) by omega)]; rfl
    · obtain ⟨m, hm⟩ := Nat.exists_eq_add_of_le (show he.position ≤ o.hb + (z + r) by omega)
      rw [hm] at hf ⊢
      have hz1 : cnt (fun i => !(bitAt v.bits i && decide (c ≤ i)) && decide (he.position ≤ i)) he.position = 0 :=
        cnt_zero (fun i hi => by rw [decide_eq_false (show ¬ he.position ≤ i by omega)]; simp)
      have hz2 : cnt (fun i => bitAt v.bits i && decide (c ≤ i)) he.position = 0 :=
        cnt_zero (fun i hi => by rw [decide_eq_false (show ¬ c ≤ i by omega)]; simp)
      rw [cnt_add, hz2] at hf
      rw [cnt_add, hz1]
      have hn := cnt_not (fun i => bitAt v.bits (he.position + i) && decide (c ≤ he.position + i)) m
      rw [cnt_congr (f := fun i => !(bitAt v.bits (he.position + i) && decide (c ≤ he.position + i)) &&
        decide (he.position ≤ he.position + i)) (g := fun i => !(bitAt v.bits (he.position + i) &&
          decide (c ≤ he.position + i))) (fun i hi => by
            rw [decide_eq_true (show he.position ≤ he.position + i by omega)]; simp)]
      rw [hm] at hq
      omega)
  rw [Nat.max_eq_right hcq] at e3
  exact ⟨he', e1, e2, e3, by omega, by omega, hr, hlt, hge⟩

theorem Ctx.fresh (x : Ctx v base u vs o) {p c : Nat} (h2 : o.hb ≤ c) (h3 : c < o.lo) (hp : p ≤ vs.length)
    (h5 : ∀ j, j < p → o.hb + hi o.l vs j < c) (h6 : ∀ j, p ≤ j → j < vs.length → c ≤ o.hb + hi o.l vs j) :
    ∃ he, UI.mk' v c = .ok he ∧ he.position = c ∧ Ready v o vs he p c := by
  have := x.fits
  have := x.ok.order
  obtain ⟨he, e1, e2, e3⟩ := UI.mk'_spec v c (by omega)
  exact ⟨he, e1, e2, e3, h2, by omega, hp, h5, h6⟩

theorem Ctx.pointer (x : Ctx v base u vs o) (off i : Nat) (h0 : 0 < i) (h : off + (i - 1) * o.psize + o.psize ≤ o.hb) :
    CEI.pointer v o off i = .ok (valueAt v.bits (off + (i - 1) * o.psize) o.psize) := by
  have := x.fits
  have := x.ok.order
  obtain ⟨w, w1, w2⟩ := v.getWord56_mask (off + (i - 1) * o.psize) o.psize x.ok.ps56 x.ok.ps0 (by omega)
  unfold CEI.pointer
  rw [if_neg (by omega), w1]
  simp only [M.ok_bind, w2]

/-- what an iterator at position `p` looks like -/
structure At (v : BV) (base u : Nat) (vs : List Nat) (it : CEI) (p : Nat) : Prop where
  off : it.off = offsets base u vs.length
  pos : it.pos = p
  le : p ≤ vs.length
  value : it.value = if p < vs.length then vs.getD p 0 else u
  he : p < vs.length → it.he.position = it.off.hb + hi it.off.l vs p ∧
    Ready v it.off vs it.he (p + 1) (it.off.hb + hi it.off.l vs p + 1)

theorem Ctx.mkAt (x : Ctx v base u vs o) {he : UI} {p val : Nat} (hp : p < vs.length) (hv : val = vs.getD p 0)
    (h1 : he.position = o.hb + hi o.l vs p) (h2 : Ready v o vs he (p + 1) (o.hb + hi o.l vs p + 1)) :
    At v base u vs ⟨o, p, val, he⟩ p :=
  ⟨x.off, rfl, by omega, by simp only; rw [if_pos hp, hv], fun _ => ⟨h1, h2⟩⟩

theorem Ctx.mkEnd (x : Ctx v base u vs o) (he : UI) : At v base u vs ⟨o, vs.length, u, he⟩ vs.length :=
  ⟨x.off, rfl, Nat.le_refl _, by simp, fun h => absurd h (by omega)⟩

theorem At.ctx {it : CEI} {p : Nat} (h : At v base u vs it p) (hr : Rep v.bits base u vs) : Ctx v base u vs it.off :=
  ⟨hr, h.off⟩

theorem seekOne_spec {it : CEI} {i : Nat} (x : Ctx v base u vs it.off) (hi' : i < vs.length)
    (h : i > it.pos → ∃ c, Ready v it.off vs it.he (it.pos + 1) c) :
    ∃ he k j c, CEI.seekOne v it i = .ok (he, k) ∧ Ready v it.off vs he j c ∧ j + k = i := by
  unfold CEI.seekOne
  rw [show 2 ^ logSampling1 = 256 from rfl]
  split
  · rename_i hc
    obtain ⟨c, hcc⟩ := h hc.1
    exact ⟨_, _, it.pos + 1, c, rfl, hcc, by omega⟩
  · clear h
    simp only
    by_cases h0 : i / 256 = 0
    · have hord := x.ok.order
      have := x.in' hi'
      obtain ⟨he, e1, e2, e3⟩ := x.fresh (p := 0) (c := it.off.hb + 0) (by omega) (by omega) (by omega)
        (by intro j hj; omega) (by intro j _ hj; omega)
      have : CEI.pointer v it.off it.off.p1 (i / 256) = .ok 0 := by unfold CEI.pointer; rw [if_pos h0]
      rw [this]
      simp only [M.ok_bind, e1]
      exact ⟨he, _, 0, _, rfl, e3, by omega⟩
    · have hlt : i / 256 * 256 < vs.length := by omega
      have hroom := p1_room x.ok (i / 256) (by omega) hlt
      rw [x.pointer it.off.p1 (i / 256) (by omega) hroom]
      have hp1 : P1 it.off vs vs.length v.bits := by rw [x.off]; exact x.rep.p1
      rw [hp1 (i / 256) (by omega) hlt]
      simp only [M.ok_bind]
      have := x.in' hlt
      obtain ⟨he, e1, e2, e3⟩ := x.fresh (p := i / 256 * 256) (c := it.off.hb + hi it.off.l vs (i / 256 * 256)) (by omega)
        (by omega) (by omega)
        (by intro j hj; have := hi_lt x.valid it.off.l hj hlt; omega)
        (by
          intro j hj hj2
          rcases Nat.lt_or_eq_of_le hj with h8 | h8
          · have := hi_lt x.valid it.off.l h8 hj2; omega
          · rw [h8]; omega)
      rw [e1]
      simp only [M.ok_bind]
      exact ⟨he, _, _, _, rfl, e3, by omega⟩

theorem slowAccess_spec {it : CEI} {i : Nat} (x : Ctx v base u vs it.off) (hi' : i ≤ vs.length)
    (h : i < vs.length → i > it.pos → ∃ c, Ready v it.off vs it.he (it.pos + 1) c) :
    ∃ it', CEI.slowAccess v it i = .ok it' ∧ At v base u vs it' i := by
  unfold CEI.slowAccess
  split
  · rename_i hn
    rw [x.ok.n] at hn
    subst hn
    refine ⟨_, rfl, ?_⟩
    rw [x.univ]
    exact x.mkEnd _
  · rename_i hn
    rw [x.ok.n] at hn
    have hlt : i < vs.length := by omega
    obtain ⟨he, k, j, c, e1, e2, e3⟩ := seekOne_spec x hlt (h hlt)
    rw [e1]
    simp only [M.ok_bind]
    obtain ⟨he2, f1, f2⟩ := x.skip (k := k) e2 (by omega)
    rw [f1]
    simp only [M.ok_bind]
    rw [e3] at f2
    obtain ⟨he3, g1, g2, g3⟩ := x.readNext f2 hlt
    rw [g1]
    simp only [M.ok_bind]
    exact ⟨_, rfl, x.mkAt hlt rfl g2 g3⟩

theorem nextN_spec (x : Ctx v base u vs o) : ∀ (k p c : Nat) (he : UI), Ready v o vs he p c → 0 < k → p + k ≤ vs.length →
    ∃ he', CEI.nextN v k he = .ok he' ∧ he'.position = o.hb + hi o.l vs (p + k - 1) ∧
      Ready v o vs he' (p + k) (o.hb + hi o.l vs (p + k - 1) + 1) := by
  intro k
  induction k with
  | zero => intro p c he _ h0; omega
  | succ k ih =>
      intro p c he h _ hp
      obtain ⟨he1, e1, e2, e3⟩ := x.next h (by omega)
      unfold CEI.nextN
      rw [e1]
      simp only [M.ok_bind]
      by_cases hk : k = 0
      · subst hk
        exact ⟨he1, rfl, e2, e3⟩
      · obtain ⟨he2, f1, f2, f3⟩ := ih (p + 1) _ he1 e3 (by omega) (by omega)
        rw [show p + 1 + k = p + (k + 1) by omega] at f2 f3
        exact ⟨he2, f1, f2, f3⟩

theorem access_spec (hr : Rep v.bits base u vs) {it : CEI} {p i : Nat} (h : At v base u vs it p) (hi' : i ≤ vs.length) :
    ∃ it', it.access v i = .ok it' ∧ At v base u vs it' i := by
  have x := h.ctx hr
  unfold CEI.access
  have hpos := h.pos
  split
  · rename_i hc
    split
    · rename_i hn
      rw [x.ok.n] at hn
      subst hn
      refine ⟨_, rfl, ?_⟩
      rw [x.univ]
      exact x.mkEnd _
    · rename_i hn
      rw [x.ok.n] at hn
      obtain ⟨h1, h2⟩ := h.he (by omega)
      rw [hpos]
      obtain ⟨he, e1, e2, e3⟩ := nextN_spec x (i - p) (p + 1) _ it.he h2 (by omega) (by omega)
      rw [show p + 1 + (i - p) - 1 = i by omega] at e2 e3
      rw [show p + 1 + (i - p) = i + 1 by omega] at e3
      rw [e1]
      simp only [M.ok_bind]
      obtain ⟨w, w1, w2⟩ := x.readLow (p := i) (by omega)
      rw [w1]
      simp only [M.ok_bind]
      rw [e2, x.compose (by omega) w w2]
      exact ⟨_, rfl, x.mkAt (by omega) rfl e2 e3⟩
  · apply slowAccess_spec x hi'
    intro h1 h2
    rw [hpos]
    exact ⟨_, (h.he (by omega)).2⟩

theorem mk'_spec (hr : Rep v.bits base u vs) : ∃ it, CEI.mk' v base u vs.length = .ok it ∧ At v base u vs it 0 := by
  have hn : 0 < vs.length := List.length_pos_iff.mpr hr.valid.ne
  unfold CEI.mk'
  rw [if_neg (by omega)]
  unfold CEI.access
  rw [if_neg (by simp)]
  exact slowAccess_spec (it := ⟨offsets base u vs.length, 0, 0, ⟨0, 0⟩⟩) ⟨hr, rfl⟩ (by omega) (fun _ hc => absurd hc (by simp))

theorem next_spec (hr : Rep v.bits base u vs) {it : CEI} {p : Nat} (h : At v base u vs it p) (hp : p < vs.length) :
    ∃ it', it.next v = .ok it' ∧ At v base u vs it' (p + 1) := by
  have x := h.ctx hr
  obtain ⟨h1, h2⟩ := h.he hp
  unfold CEI.next
  rw [x.ok.n, h.pos]
  split
  · rename_i hn
    obtain ⟨he, e1, e2, e3⟩ := x.readNext h2 hn
    rw [e1]
    simp only [M.ok_bind]
    exact ⟨_, rfl, x.mkAt hn rfl e2 e3⟩
  · rename_i hn
    refine ⟨_, rfl, ?_⟩
    rw [x.univ, show p + 1 = vs.length by omega]
    exact x.mkEnd _

/-- `p` is the position of the first element that is at least `y` -/
structure First (vs : List Nat) (y p : Nat) : Prop where
  le : p ≤ vs.length
  before : ∀ j, j < p → vs.getD j 0 < y
  here : p < vs.length → y ≤ vs.getD p 0

theorem scanLoop_spec (hr : Rep v.bits base u vs) (y : Nat) : ∀ (fuel p : Nat) (it : CEI), At v base u vs it p →
    vs.length - p < fuel →
    ∃ it' p', CEI.scanLoop v y fuel it = .ok it' ∧ At v base u vs it' p' ∧ p ≤ p' ∧
      (∀ j, p ≤ j → j < p' → vs.getD j 0 < y) ∧ (p' < vs.length → y ≤ vs.getD p' 0) := by
  intro fuel
  induction fuel with
  | zero => intro p it _ h; omega
  | succ fuel ih =>
      intro p it h hf
      have x := h.ctx hr
      have hval := h.value
      have hle := h.le
      unfold CEI.scanLoop
      rw [x.ok.n, h.pos]
      split
      · rename_i hn
        have hlt : p < vs.length := by omega
        rw [if_pos hlt] at hval
        split
        · rename_i hy
          exact ⟨it, p, rfl, h, Nat.le_refl _, by intro j h1 h2; omega, fun _ => by rw [← hval]; exact hy⟩
        · rename_i hy
          obtain ⟨it1, e1, e2⟩ := next_spec hr h hlt
          rw [e1]
          simp only [M.ok_bind]
          obtain ⟨it', p', f1, f2, f3, f4, f5⟩ := ih (p + 1) it1 e2 (by omega)
          refine ⟨it', p', f1, f2, by omega, ?_, f5⟩
          intro j h1 h2
          rcases Nat.lt_or_eq_of_le h1 with h8 | h8
          · exact f4 j (by omega) h2
          · subst h8; omega
      · rename_i hn
        have : p = vs.length := by omega
        subst this
        refine ⟨_, vs.length, rfl, ?_, Nat.le_refl _, by intro j h1 h2; omega, by omega⟩
        have hpos := h.pos
        obtain ⟨off, pos, value, he⟩ := it
        simp only at hpos x ⊢
        subst hpos
        rw [x.univ]
        exact x.mkEnd he

theorem slowLoop_spec (x : Ctx v base u vs o) (y : Nat) : ∀ (fuel p c : Nat) (he : UI), Ready v o vs he p c →
    vs.length - p < fuel → (∀ j, j < p → vs.getD j 0 < y) →
    ∃ it' p', CEI.slowLoop v o y fuel p he = .ok it' ∧ At v base u vs it' p' ∧ First vs y p' := by
  intro fuel
  induction fuel with
  | zero => intro p c he _ h; omega
  | succ fuel ih =>
      intro p c he h hf hb
      have hp : p ≤ vs.length := h.2.2.2.1
      unfold CEI.slowLoop
      rw [x.ok.n]
      split
      · rename_i hn
        subst hn
        rw [x.univ]
        exact ⟨_, _, rfl, x.mkEnd he, Nat.le_refl _, hb, by omega⟩
      · rename_i hn
        obtain ⟨he1, e1, e2, e3⟩ := x.readNext h (by omega)
        rw [e1]
        simp only [M.ok_bind]
        split
        · rename_i hy
          exact ⟨_, p, rfl, x.mkAt (by omega) rfl e2 e3, hp, hb, fun _ => hy⟩
        · rename_i hy
          apply ih (p + 1) _ he1 e3 (by omega)
          intro j hj
          rcases Nat.lt_or_eq_of_le (Nat.le_of_lt_succ hj) with h8 | h8
          · exact hb j h8
          · subst h8; omega

theorem fastLoop_spec (x : Ctx v base u vs o) (y : Nat) : ∀ (fuel p c : Nat) (he : UI), Ready v o vs he (p + 1) c →
    vs.length - p ≤ fuel → 0 < fuel → (∀ j, j < p + 1 → vs.getD j 0 < y) →
    ∃ it' p', CEI.fastLoop v o y fuel p he = .ok it' ∧ At v base u vs it' p' ∧ First vs y p' := by
  intro fuel
  induction fuel with
  | zero => intro p c he _ _ h; omega
  | succ fuel ih =>
      intro p c he h hf _ hb
      have hp : p + 1 ≤ vs.length := h.2.2.2.1
      unfold CEI.fastLoop
      rw [x.ok.n]
      split
      · rename_i hn
        obtain ⟨he1, e1, e2, e3⟩ := x.readNext h hn
        rw [e1]
        simp only [M.ok_bind]
        split
        · rename_i hy
          apply ih (p + 1) _ he1 e3 (by omega) (by omega)
          intro j hj
          rcases Nat.lt_or_eq_of_le (Nat.le_of_lt_succ hj) with h8 | h8
          · exact hb j h8
          · subst h8; omega
        · rename_i hy
          exact ⟨_, p + 1, rfl, x.mkAt (by omega) rfl e2 e3, hp, hb, fun _ => by omega⟩
      · rename_i hn
        have : p + 1 = vs.length := by omega
        rw [x.univ, this]
        exact ⟨_, _, rfl, x.mkEnd he, Nat.le_refl _, by rw [← this]; exact hb, by omega⟩

theorem seekZero_spec {it : CEI} {p y : Nat} (x : Ctx v base u vs it.off) (h : At v base u vs it p) (hy : y < u)
    (hbig : y > it.value → y / 2 ^ it.off.l ≠ it.value / 2 ^ it.off.l) :
    ∃ he k j c r, CEI.seekZero v it y = .ok (he, k) ∧ Split it.off.l vs (y / 2 ^ it.off.l) r ∧ Ready v it.off vs he j c ∧
      he.position ≤ c ∧ c ≤ it.off.hb + (y / 2 ^ it.off.l + r) ∧
      k + r + he.position = it.off.hb + (y / 2 ^ it.off.l + r) + j := by
  obtain ⟨r, hs⟩ := exists_split x.valid it.off.l (y / 2 ^ it.off.l)
  have hval := h.value
  unfold CEI.seekZero
  rw [show 2 ^ logSampling0 = 512 from rfl]
  simp only
  split
  · rename_i hc
    have hlt : p < vs.length := by
      apply Nat.lt_of_not_le
      intro hcc
      rw [if_neg (by omega)] at hval
      omega
    rw [if_pos hlt] at hval
    obtain ⟨h1, h2⟩ := h.he hlt
    have hne := hbig hc.1
    have hle : it.value / 2 ^ it.off.l ≤ y / 2 ^ it.off.l := Nat.div_le_div_right (by omega)
    rw [hval] at hne hle ⊢
    have hpr : p < r := by
      apply Nat.lt_of_not_le
      intro hcc
      have := hs.ge p hcc hlt
      omega
    refine ⟨_, _, p + 1, _, r, rfl, hs, h2, by omega, ?_, ?_⟩
    · have := hs.hi_lt p hpr; omega
    · rw [h1]; unfold hi; omega
  · clear hbig
    have hz : y / 2 ^ it.off.l ≤ it.off.univ / 2 ^ it.off.l := Nat.div_le_div_right (by rw [x.univ]; omega)
    have hhl := x.ok.hlen
    have hn : 0 < vs.length := List.length_pos_iff.mpr x.valid.ne
    generalize hZ : y / 2 ^ it.off.l = z at *
    by_cases h0 : z / 512 = 0
    · have hord := x.ok.order
      have := x.in' hn
      obtain ⟨he, e1, e2, e3⟩ := x.fresh (p := 0) (c := it.off.hb + 0) (by omega) (by omega) (by omega)
        (by intro j hj; omega) (by intro j _ hj; omega)
      have : CEI.pointer v it.off it.off.p0 (z / 512) = .ok 0 := by unfold CEI.pointer; rw [if_pos h0]
      rw [this]
      simp only [M.ok_bind, e1]
      exact ⟨he, _, 0, _, r, rfl, hs, e3, by omega, by omega, by omega⟩
    · have hlt : z / 512 * 512 < it.off.hlen - vs.length := by omega
      have hroom := p0_room x.ok (z / 512) (by omega) hlt
      have hord := x.ok.order
      rw [x.pointer it.off.p0 (z / 512) (by omega) (by omega)]
      have hp0 : P0 it.off vs (it.off.hlen - vs.length) v.bits := by rw [x.off]; exact x.rep.p0
      obtain ⟨r0, s0, e0⟩ := hp0 (z / 512) (by omega) hlt
      rw [e0]
      simp only [M.ok_bind]
      have hr0 := s0.le
      have hlo := x.ok.lo
      obtain ⟨he, e1, e2, e3⟩ := x.fresh (p := r0) (c := it.off.hb + (z / 512 * 512 + r0)) (by omega) (by omega) hr0
        (by intro j hj; have := s0.hi_lt j hj; omega)
        (by intro j hj hj2; have := s0.lt_hi j hj hj2; omega)
      rw [e1]
      simp only [M.ok_bind]
      have hrr : r0 ≤ r := by
        apply Nat.le_of_not_lt
        intro hcc
        have h1 := s0.lt r hcc
        have h2 := hs.ge r (Nat.le_refl _) (by omega)
        omega
      exact ⟨he, _, r0, _, r, rfl, hs, e3, by omega, by omega, by omega⟩

theorem nextGeq_spec (hr : Rep v.bits base u vs) (hb : ∀ w ∈ vs, w < u) {it : CEI} {p y : Nat} (h : At v base u vs it p)
    (hy : y ≤ u ∨ p < vs.length) :
    ∃ it' p', it.nextGeq v y = .ok it' ∧ At v base u vs it' p' ∧ First vs y p' := by
  have x := h.ctx hr
  have hval := h.value
  have hpos := h.pos
  unfold CEI.nextGeq
  split
  · rename_i hc
    have hlt : p < vs.length := by
      apply Nat.lt_of_not_le
      intro hcc
      rw [if_neg (by omega)] at hval
      omega
    rw [if_pos hlt] at hval
    obtain ⟨h1, h2⟩ := h.he hlt
    rw [hpos, x.ok.n]
    apply fastLoop_spec x y (vs.length + 1) p _ it.he h2 (by omega) (by omega)
    intro j hj
    have := x.valid.le (i := j) (j := p) (by omega) hlt
    omega
  · rename_i hc
    unfold CEI.slowNextGeq
    rw [x.univ]
    split
    · rename_i hyu
      rw [x.ok.n]
      obtain ⟨it', e1, e2⟩ := access_spec hr h (Nat.le_refl _)
      refine ⟨it', vs.length, e1, e2, Nat.le_refl _, ?_, by omega⟩
      intro j hj
      have : vs.getD j 0 < u := by
        rw [List.getD_eq_getElem?_getD, List.getElem?_eq_getElem hj]
        exact hb _ (List.getElem_mem hj)
      omega
    · rename_i hyu
      obtain ⟨he, k, j, c, r, s1, s2, s3, s4, s5, s6⟩ := seekZero_spec (y := y) x h (by omega) (by
        intro h1 h2
        apply hc
        rw [h2]
        exact ⟨h1, by omega⟩)
      rw [s1]
      simp only [M.ok_bind]
      obtain ⟨he2, f1, f2, f3⟩ := x.skip0 s3 s2 (Nat.div_le_div_right (show y ≤ it.off.univ by rw [x.univ]; omega)) s4 s5 s6
      rw [f1]
      simp only [M.ok_bind]
      rw [f2, show it.off.hb + (y / 2 ^ it.off.l + r) - it.off.hb - y / 2 ^ it.off.l = r by omega, x.ok.n]
      apply slowLoop_spec x y (vs.length + 1) r _ he2 f3 (by omega)
      intro j hj
      have := s2.lt j hj
      apply Nat.lt_of_not_le
      intro hcc
      have := Nat.div_le_div_right (c := 2 ^ it.off.l) hcc
      omega

theorem prevValue_spec (hr : Rep v.bits base u vs) {it : CEI} {p : Nat} (h : At v base u vs it p) (hp : 0 < p) :
    it.prevValue v = .ok (vs.getD (p - 1) 0) := by
  have x := h.ctx hr
  have hle := h.le
  unfold CEI.prevValue
  rw [h.pos, if_neg (by omega)]
  have hone := x.one (j := p - 1) (by omega)
  have hin := x.in' (j := p - 1) (by omega)
  have : CEI.prevHigh v it = .ok (it.off.hb + hi it.off.l vs (p - 1)) := by
    have key : ∀ q, it.off.hb + hi it.off.l vs (p - 1) ≤ q → q < it.off.lo →
        (p < vs.length → q < it.off.hb + hi it.off.l vs p) →
        v.predecessor1 q = .ok (it.off.hb + hi it.off.l vs (p - 1)) := by
      intro q h1 h2 h3
      obtain ⟨r, e1, e2, e3, e4⟩ := v.predecessor1_spec q (by omega) ⟨_, h1, hone⟩
      rw [e1]
      congr 1
      rcases Nat.lt_trichotomy r (it.off.hb + hi it.off.l vs (p - 1)) with h5 | h5 | h5
      · have := e4 _ h5 h1
        rw [hone] at this; cases this
      · exact h5
      · rw [x.zero (by omega) (by omega)] at e3
        · cases e3
        · intro j hj hc
          rcases Nat.lt_or_ge j p with h6 | h6
          · rcases Nat.lt_or_eq_of_le (show j ≤ p - 1 by omega) with h7 | h7
            · have := hi_lt x.valid it.off.l (i := j) (j := p - 1) h7 (by omega); omega
            · subst h7; omega
          · have := h3 (by omega)
            rcases Nat.lt_or_eq_of_le h6 with h7 | h7
            · have := hi_lt x.valid it.off.l (i := p) (j := j) h7 hj; omega
            · subst h7; omega
    unfold CEI.prevHigh
    rw [h.pos, x.ok.n]
    split
    · rename_i hlt
      have h1 := (h.he hlt).1
      have h2 := hi_lt x.valid it.off.l (i := p - 1) (j := p) (by omega) hlt
      have h3 := x.in' hlt
      rw [h1]
      exact key _ (by omega) (by omega) (fun _ => by omega)
    · rename_i hlt
      exact key _ (by omega) (by omega) (fun hc => absurd hc hlt)
  rw [this]
  simp only [M.ok_bind]
  obtain ⟨w, w1, w2⟩ := x.readLow (p := p - 1) (by omega)
  rw [w1]
  simp only [M.ok_bind]
  rw [x.compose (by omega) w w2]

theorem intersectsLoop_spec (hr : Rep v.bits base u vs) (r : Range) : ∀ (k p : Nat) (it : CEI), At v base u vs it p →
    p + k + 1 = vs.length → (∀ j, j ≤ p → ¬ (r.b ≤ vs.getD j 0 ∧ vs.getD j 0 ≤ r.e)) →
    ∃ b it', CEI.intersectsLoop v r k it = .ok (b, it') ∧
      (b = true ↔ ∃ j, j < vs.length ∧ r.b ≤ vs.getD j 0 ∧ vs.getD j 0 ≤ r.e) := by
  intro k
  induction k with
  | zero =>
      intro p it h hk hno
      refine ⟨false, it, rfl, ⟨fun hc => (by cases hc), ?_⟩⟩
      rintro ⟨j, hj, hj2⟩
      exact absurd hj2 (hno j (by omega))
  | succ k ih =>
      intro p it h hk hno
      obtain ⟨it1, e1, e2⟩ := next_spec hr h (by omega)
      have hval := e2.value
      rw [if_pos (by omega)] at hval
      unfold CEI.intersectsLoop
      rw [e1]
      simp only [M.ok_bind, hval]
      split
      · rename_i hgt
        refine ⟨false, it1, rfl, ⟨fun hc => (by cases hc), ?_⟩⟩
        rintro ⟨j, hj, hj2⟩
        rcases Nat.lt_or_ge p j with h5 | h5
        · have := hr.valid.le (i := p + 1) (j := j) (by omega) hj
          omega
        · exact absurd hj2 (hno j h5)
      · split
        · rename_i hin
          exact ⟨true, it1, rfl, fun _ => ⟨p + 1, by omega, hin⟩, fun _ => rfl⟩
        · rename_i hin
          apply ih (p + 1) it1 e2 (by omega)
          intro j hj
          rcases Nat.lt_or_eq_of_le hj with h8 | h8
          · exact hno j (by omega)
          · subst h8; exact hin

theorem intersects_spec (hr : Rep v.bits base u vs) (r : Range) {it : CEI} {p : Nat} (h : At v base u vs it p) :
    ∃ b it', it.intersects v r = .ok (b, it') ∧
      (b = true ↔ ∃ j, j < vs.length ∧ r.b ≤ vs.getD j 0 ∧ vs.getD j 0 ≤ r.e) := by
  have hn : 0 < vs.length := List.length_pos_iff.mpr hr.valid.ne
  obtain ⟨it1, e1, e2⟩ := access_spec hr h (i := 0) (by omega)
  have hval := e2.value
  rw [if_pos hn] at hval
  have x := e2.ctx hr
  unfold CEI.intersects
  rw [e1]
  simp only [M.ok_bind, hval]
  split
  · rename_i hgt
    refine ⟨false, it1, rfl, ⟨fun hc => (by cases hc), ?_⟩⟩
    rintro ⟨j, hj, hj2⟩
    have := hr.valid.le (i := 0) (j := j) (by omega) hj
    omega
  · split
    · rename_i hin
      exact ⟨true, it1, rfl, fun _ => ⟨0, hn, hin⟩, fun _ => rfl⟩
    · rename_i hin
      rw [x.ok.n, if_neg (by omega)]
      apply intersectsLoop_spec hr r (vs.length - 1) 0 it1 e2 (by omega)
      intro j hj
      rw [show j = 0 by omega]; exact hin

end

theorem takeWhile_length {α : Type} [Inhabited α] (P : α → Bool) (xs : List α) (d : α) (p : Nat) (hp : p ≤ xs.length)
    (h1 : ∀ j, j < p → P (xs.getD j d) = true) (h2 : p < xs.length → P (xs.getD p d) = false) :
    (xs.takeWhile P).length = p := by
  induction xs generalizing p with
  | nil => simp at hp; simp [hp]
  | cons x xs ih =>
      cases p with
      | zero =>
          have := h2 (by simp)
          simp only [List.getD_cons_zero] at this
          simp [List.takeWhile_cons, this]
      | succ p =>
          have h3 := h1 0 (by omega)
          simp only [List.getD_cons_zero] at h3
          rw [List.takeWhile_cons, h3]
          simp only [if_true, List.length_cons]
          rw [ih p (by simpa using hp) (fun j hj => by have := h1 (j + 1) (by omega); simpa using this)
            (fun hlt => by have := h2 (by simpa using hlt); simpa using this)]

theorem First.eq {vs : List Nat} {y p : Nat} (h : First vs y p) : (vs.takeWhile (· < y)).length = p := by
  apply takeWhile_length _ _ 0 p h.le
  · intro j hj; simpa using h.before j hj
  · intro hlt; simpa using h.here hlt

end AC.CEF
