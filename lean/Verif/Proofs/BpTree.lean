import Verif.Proofs.BpBuild
/-!
# The search of the least superblock in the tree of minima
-/
namespace AC.BP

variable {b : BP}

/-- number of superblocks -/
def supers (b : BP) : Nat := ((b.rs.bv.bits.length + 3) / 4 + 31) / 32

/-- the excess of superblocks -/
def sme (b : BP) (k : Nat) : Int := sm b.rs.bv.bits b.rs.bv.size k

/-- node `v` at height `h` spans the superblocks `lo .. hi`, which all exist -/
structure Span (b : BP) (v h lo hi : Nat) : Prop where
  first : v * 2 ^ h = b.internal + lo
  last : hi + 1 = lo + 2 ^ h
  full : hi < b.supers

theorem Rep.internal_pos (H : b.Rep) : 0 < b.internal := by
  obtain ⟨h, e⟩ := H.pow
  rw [e]; exact Nat.two_pow_pos h

theorem Span.children {v h lo hi : Nat} (s : Span b v (h + 1) lo hi) :
    Span b (2 * v) h lo (lo + 2 ^ h - 1) ∧ Span b (2 * v + 1) h (lo + 2 ^ h) hi := by
  have h1 := s.first
  have h2 := s.last
  have h3 := s.full
  have hp := Nat.two_pow_pos h
  have e1 : v * 2 ^ (h + 1) = 2 * v * 2 ^ h := by rw [Nat.pow_succ, Nat.mul_comm 2 v, Nat.mul_assoc, Nat.mul_comm 2 (2 ^ h)]
  have e2 : 2 ^ (h + 1) = 2 ^ h + 2 ^ h := by rw [Nat.pow_succ]; omega
  have e3 : (2 * v + 1) * 2 ^ h = 2 * v * 2 ^ h + 2 ^ h := by rw [Nat.add_mul, Nat.one_mul]
  refine ⟨⟨by omega, by omega, by omega⟩, ⟨by omega, by omega, by omega⟩⟩

theorem Span.inner (H : b.Rep) {v h lo hi : Nat} (s : Span b v (h + 1) lo hi) : 1 ≤ v ∧ v < b.internal := by
  have h1 := s.first
  have h2 := s.last
  have h3 := s.full
  have hf : b.supers ≤ b.internal := H.fits
  have hp := Nat.two_pow_pos h
  have hi0 := H.internal_pos
  have e2 : 2 ^ (h + 1) = 2 ^ h + 2 ^ h := by rw [Nat.pow_succ]; omega
  constructor
  · apply Nat.pos_of_ne_zero
    intro h0
    rw [h0, Nat.zero_mul] at h1
    omega
  · apply Nat.lt_of_not_le
    intro hc
    have : b.internal * 2 ≤ v * 2 ^ (h + 1) := Nat.mul_le_mul hc (by omega)
    omega

/-- a full node holds the least excess of its superblocks -/
theorem node_min (H : b.Rep) : ∀ h v lo hi, Span b v h lo hi → ∃ m p, Best b.sme lo hi m p ∧ b.superMin[v]? = some m := by
  intro h
  induction h with
  | zero =>
      intro v lo hi s
      have h1 := s.first
      have h2 := s.last
      simp only [Nat.pow_zero, Nat.mul_one] at h1 h2
      have e : hi = lo := by omega
      subst e
      refine ⟨_, _, Best.single _ _, ?_⟩
      rw [h1]
      exact H.leaf _ s.full
  | succ h ih =>
      intro v lo hi s
      obtain ⟨c1, c2⟩ := s.children
      obtain ⟨m1, p1, b1, t1⟩ := ih _ _ _ c1
      obtain ⟨m2, p2, b2, t2⟩ := ih _ _ _ c2
      have hp := Nat.two_pow_pos h
      have h2 := s.last
      have e2 : 2 ^ (h + 1) = 2 ^ h + 2 ^ h := by rw [Nat.pow_succ]; omega
      obtain ⟨v1, v2⟩ := s.inner H
      have hm := b1.merge b2 (by omega) (by omega) (by omega)
      refine ⟨_, _, hm, ?_⟩
      rw [H.node v m1 m2 v1 v2 t1 t2]
      congr 1
      split <;> omega

/-- going down from a full node leads to its leftmost least superblock -/
theorem leaf_spec (H : b.Rep) : ∀ fuel h v lo hi m p, h < fuel → Span b v h lo hi → Best b.sme lo hi m p →
    leaf b.superMin b.internal fuel v = .ok (b.internal + p) := by
  intro fuel
  induction fuel with
  | zero => intro h v lo hi m p hf; omega
  | succ fuel ih =>
      intro h v lo hi m p hf s hb
      match h, s with
      | 0, s =>
          have h1 := s.first
          have h2 := s.last
          simp only [Nat.pow_zero, Nat.mul_one] at h1 h2
          have := hb.lo_le
          have := hb.le_hi
          show (if v < b.internal then _ else _) = _
          rw [if_neg (by omega)]
          apply congrArg Except.ok
          omega
      | h + 1, s =>
          obtain ⟨v1, v2⟩ := s.inner H
          obtain ⟨c1, c2⟩ := s.children
          obtain ⟨m1, p1, b1, t1⟩ := node_min H h _ _ _ c1
          obtain ⟨m2, p2, b2, t2⟩ := node_min H h _ _ _ c2
          have hp := Nat.two_pow_pos h
          have h2 := s.last
          have e2 : 2 ^ (h + 1) = 2 ^ h + 2 ^ h := by rw [Nat.pow_succ]; omega
          have hm := b1.merge b2 (by omega) (by omega) (by omega)
          obtain ⟨_, u2⟩ := hb.unique hm
          show (if v < b.internal then _ else _) = _
          rw [if_pos v2, rd_of_getElem? t2, M.ok_bind, rd_of_getElem? t1, M.ok_bind, u2]
          split
          · exact ih h _ _ _ _ _ (by omega) c2 b2
          · exact ih h _ _ _ _ _ (by omega) c1 b1

/-- everything in `first .. cov` has been looked at, and node `i` holds the leftmost minimum -/
def Cover (b : BP) (first cov : Nat) (m : Int) (i : Nat) : Prop :=
  ∃ p h lo hi, Best b.sme first cov m p ∧ Span b i h lo hi ∧ Best b.sme lo hi m p

theorem better_spec (H : b.Rep) {first cov : Nat} {m : Int} {i : Nat} (hc : Cover b first cov m i) {v h lo hi : Nat}
    (s : Span b v h lo hi) (h1 : first ≤ lo) (h2 : lo ≤ cov + 1) (h3 : cov ≤ hi) :
    ∃ m' i', better b.superMin v (m, i) = .ok (m', i') ∧ Cover b first hi m' i' := by
  obtain ⟨p, k, l, r, c1, c2, c3⟩ := hc
  obtain ⟨m1, p1, b1, t1⟩ := node_min H h v lo hi s
  have hm := c1.merge b1 h1 h2 h3
  unfold better
  rw [rd_of_getElem? t1, M.ok_bind]
  dsimp only
  by_cases hlt : m1 < m
  · rw [if_pos hlt, if_pos hlt] at hm
    rw [if_pos hlt]
    exact ⟨_, _, rfl, _, _, _, _, hm, s, b1⟩
  · rw [if_neg hlt, if_neg hlt] at hm
    rw [if_neg hlt]
    exact ⟨_, _, rfl, _, _, _, _, hm, c2, c3⟩

/-- where the walk is: the last superblock of node `c.node` of height `c.h` is `c.right` -/
def At (b : BP) (c : Climb) : Prop := (c.node + 1) * 2 ^ c.h = b.internal + c.right + 1

theorem up_spec (H : b.Rep) {first last : Nat} (hl : last ≤ b.supers) : ∀ fuel c, At b c → c.node < 2 ^ fuel → c.right < last - 1 →
    first ≤ c.right → 1 ≤ c.node → Cover b first c.right c.min c.idx →
    ∃ c', up b.superMin last fuel c = .ok c' ∧ At b c' ∧ last - 1 ≤ c'.right ∧ c'.right < last - 1 + 2 ^ c'.h ∧ first + 2 ^ c'.h ≤ c'.right ∧
      ∃ cov, Cover b first cov c'.min c'.idx ∧ c'.right ≤ cov + 2 ^ c'.h ∧ cov ≤ c'.right ∧ (c'.right = last - 1 ∨ cov + 2 ^ c'.h = c'.right) := by
  intro fuel
  induction fuel with
  | zero => intro c _ h2 _ _ h5; simp at h2; omega
  | succ fuel ih =>
      intro c ha hf hr hfr hn hc
      have hf' := hf
      rw [Nat.pow_succ] at hf'
      have hp := Nat.two_pow_pos c.h
      have hfit : b.supers ≤ b.internal := H.fits
      unfold At at ha
      rw [Nat.add_mul, Nat.one_mul] at ha
      have e2 : 2 ^ (c.h + 1) = 2 ^ c.h + 2 ^ c.h := by rw [Nat.pow_succ]; omega
      have n1 : c.node ≠ 1 := by
        intro h1
        rw [h1, Nat.one_mul] at ha
        obtain ⟨e, he⟩ := H.pow
        -- two powers of two: 2 * 2 ^ h = internal + right + 1 with right + 1 < internal
        have hlt : 2 ^ e < 2 * 2 ^ c.h := by omega
        have hgt : 2 * 2 ^ c.h < 2 * 2 ^ e := by omega
        have h1 : e < c.h + 1 := (Nat.pow_lt_pow_iff_right (by omega : 1 < 2)).mp (by rw [Nat.pow_succ]; omega)
        have h2 : c.h < e := (Nat.pow_lt_pow_iff_right (by omega : 1 < 2)).mp (by omega)
        omega
      show ∃ c', (if c.node % 2 = 0 then _ else _) = _ ∧ _
      have hdiv : c.node / 2 < 2 ^ fuel := by omega
      by_cases hev : c.node % 2 = 0
      · rw [if_pos hev]
        dsimp only
        have hat : At b ⟨c.node / 2, c.h + 1, c.right + 2 ^ c.h, c.min, c.idx⟩ := by
          unfold At
          dsimp only
          rw [Nat.pow_succ, Nat.mul_comm (2 ^ c.h) 2, ← Nat.mul_assoc, Nat.add_mul, Nat.one_mul, Nat.div_mul_cancel (by omega), Nat.add_mul]
          omega
        by_cases hlt : c.right + 2 ^ c.h < last
        · have hs : Span b (c.node + 1) c.h (c.right + 1) (c.right + 2 ^ c.h) :=
            ⟨by rw [Nat.add_mul, Nat.one_mul]; omega, by omega, by omega⟩
          obtain ⟨m, i, m1, m2⟩ := better_spec H hc hs (by omega) (by omega) (by omega)
          have : betterIf (decide (c.right + 2 ^ c.h < last)) b.superMin (c.node + 1) (c.min, c.idx) = .ok (m, i) := by
            unfold betterIf
            rw [if_pos (by simpa using hlt), m1]
          rw [this, M.ok_bind]
          dsimp only
          by_cases hge : c.right + 2 ^ c.h ≥ last - 1
          · rw [if_pos hge]
            refine ⟨_, rfl, ?_, ?_, ?_, ?_, c.right + 2 ^ c.h, m2, ?_, ?_, ?_⟩
            · unfold At
              dsimp only
              rw [Nat.add_mul, Nat.add_mul]
              omega
            all_goals dsimp only
            all_goals omega
          · rw [if_neg hge]
            exact ih _ hat hdiv (by dsimp only; omega) (by dsimp only; omega) (by dsimp only; omega) m2
        · have : betterIf (decide (c.right + 2 ^ c.h < last)) b.superMin (c.node + 1) (c.min, c.idx) = .ok (c.min, c.idx) := by
            unfold betterIf
            rw [if_neg (by simpa using hlt)]
          rw [this, M.ok_bind]
          dsimp only
          rw [if_pos (by omega)]
          refine ⟨_, rfl, ?_, ?_, ?_, ?_, c.right, hc, ?_, ?_, ?_⟩
          · unfold At
            dsimp only
            rw [Nat.add_mul, Nat.add_mul]
            omega
          all_goals dsimp only
          all_goals omega
      · rw [if_neg hev]
        refine ih _ ?_ hdiv hr hfr (by dsimp only; omega) hc
        unfold At
        dsimp only
        have : c.node / 2 + 1 = (c.node + 1) / 2 := by omega
        rw [this, Nat.pow_succ, Nat.mul_comm (2 ^ c.h) 2, ← Nat.mul_assoc, Nat.div_mul_cancel (by omega), Nat.add_mul]
        omega

theorem down_spec (H : b.Rep) {first last : Nat} (hl : last ≤ b.supers) : ∀ fuel c, At b c → c.h < fuel → last - 1 ≤ c.right →
    c.right < last - 1 + 2 ^ c.h → first + 2 ^ c.h ≤ c.right →
    (∃ cov, Cover b first cov c.min c.idx ∧ c.right ≤ cov + 2 ^ c.h ∧ cov ≤ c.right ∧ (c.right = last - 1 ∨ cov + 2 ^ c.h = c.right)) →
    ∃ c', down b.superMin last fuel c = .ok c' ∧ At b c' ∧ c'.right = last - 1 ∧ first + 2 ^ c'.h ≤ c'.right ∧
      ∃ cov, Cover b first cov c'.min c'.idx ∧ c'.right ≤ cov + 2 ^ c'.h ∧ cov ≤ c'.right := by
  intro fuel
  induction fuel with
  | zero => intro c _ h; omega
  | succ fuel ih =>
      intro c ha hf h1 h2 h3 hc
      obtain ⟨cov, hc, c1, c2, c3⟩ := hc
      show ∃ c', (if c.right > last - 1 then _ else _) = _ ∧ _
      by_cases hgt : c.right > last - 1
      · rw [if_pos hgt]
        unfold At at ha
        obtain ⟨k, hk⟩ : ∃ k, c.h = k + 1 := by
          cases hh : c.h with
          | zero => rw [hh] at h2; simp at h2; omega
          | succ k => exact ⟨k, rfl⟩
        rw [hk] at ha h2 h3 c1 c3
        rw [Nat.add_mul, Nat.one_mul] at ha
        have hp := Nat.two_pow_pos k
        have e2 : 2 ^ (k + 1) = 2 ^ k + 2 ^ k := by rw [Nat.pow_succ]; omega
        have e1 : c.node * 2 ^ (k + 1) = 2 * c.node * 2 ^ k := by
          rw [Nat.pow_succ, Nat.mul_comm 2 c.node, Nat.mul_assoc, Nat.mul_comm 2 (2 ^ k)]
        have e3 : (2 * c.node + 1) * 2 ^ k = 2 * c.node * 2 ^ k + 2 ^ k := by rw [Nat.add_mul, Nat.one_mul]
        have e4 : (2 * c.node + 1 + 1) * 2 ^ k = 2 * c.node * 2 ^ k + 2 ^ k + 2 ^ k := by rw [Nat.add_mul, Nat.one_mul, e3]
        dsimp only
        rw [hk, Nat.add_sub_cancel]
        by_cases hge : c.right - 2 ^ k ≥ last - 1
        · rw [if_pos hge]
          apply ih
          · unfold At
            dsimp only
            omega
          · dsimp only; omega
          · dsimp only; omega
          · dsimp only; omega
          · dsimp only; omega
          · exact ⟨cov, hc, by dsimp only; omega, by dsimp only; omega, by dsimp only; omega⟩
        · rw [if_neg hge]
          have hs : Span b (2 * c.node) k (c.right + 1 - 2 ^ (k + 1)) (c.right - 2 ^ k) := ⟨by omega, by omega, by omega⟩
          obtain ⟨m, i, m1, m2⟩ := better_spec H hc hs (by omega) (by omega) (by omega)
          rw [m1, M.ok_bind]
          dsimp only
          apply ih
          · unfold At
            dsimp only
            omega
          · dsimp only; omega
          · dsimp only; omega
          · dsimp only; omega
          · dsimp only; omega
          · exact ⟨_, m2, by dsimp only; omega, by dsimp only; omega, by dsimp only; omega⟩
      · rw [if_neg hgt]
        exact ⟨c, rfl, ha, by omega, h3, cov, hc, c1, c2⟩

theorem minSuper_spec (H : b.Rep) {first last : Nat} (hfl : first < last) (hl : last ≤ b.supers) (s : Int × Nat) :
    ∃ m p, Best b.sme first (last - 1) m p ∧ (b.minSuper first last s = .ok (if m < s.1 then (m, p) else s) ∨
      (b.minSuper first last s = .ok (m, p))) := by
  unfold minSuper
  rw [if_neg (by omega)]
  have hs0 : Span b (b.internal + first) 0 first first := ⟨by simp, by simp, by omega⟩
  have ht : b.superMin[b.internal + first]? = some (b.sme first) := H.leaf first (by unfold supers at hl; omega)
  rw [rd_of_getElem? ht, M.ok_bind]
  by_cases h1 : last - first = 1
  · rw [if_pos h1, show last - 1 = first by omega]
    exact ⟨_, _, Best.single _ _, Or.inr rfl⟩
  · rw [if_neg h1]
    have hfit : b.supers ≤ b.internal := H.fits
    have hi := H.internal_pos
    have hpow : b.internal < 2 ^ b.internal := Nat.lt_two_pow_self
    obtain ⟨c, u1, u2, u3, u4, u5, u6⟩ := up_spec H hl (first := first) (b.internal + 1) ⟨b.internal + first, 0, first, b.sme first, b.internal + first⟩
      (by unfold At; simp) (by dsimp only; rw [Nat.pow_succ]; omega) (by dsimp only; omega) (by dsimp only; omega) (by dsimp only; omega)
      ⟨first, 0, first, first, Best.single _ _, hs0, Best.single _ _⟩
    rw [u1, M.ok_bind]
    obtain ⟨d, d1, d2, d3, d4, cov, d5, d6, d7⟩ := down_spec H hl (first := first) (c.h + 1) c u2 (by omega) u3 u4 u5 u6
    rw [d1, M.ok_bind]
    unfold At at d2
    rw [Nat.add_mul, Nat.one_mul] at d2
    have hp := Nat.two_pow_pos d.h
    have hs : Span b d.node d.h (d.right + 1 - 2 ^ d.h) d.right := ⟨by omega, by omega, by omega⟩
    obtain ⟨m, i, m1, m2⟩ := better_spec H d5 hs (by omega) (by omega) d7
    have : betterIf (decide (d.right < last)) b.superMin d.node (d.min, d.idx) = .ok (m, i) := by
      unfold betterIf
      rw [if_pos (by simp; omega), m1]
    rw [this, M.ok_bind]
    obtain ⟨p, k, lo, hi', b1, b2, b3⟩ := m2
    rw [d3] at b1
    refine ⟨m, p, b1, Or.inl ?_⟩
    dsimp only
    by_cases hlt : m < s.1
    · rw [if_pos hlt, if_pos hlt]
      have hk : k < b.internal + 1 := by
        have h1 := b2.last
        have h2 := b2.full
        have : k < 2 ^ k := Nat.lt_two_pow_self
        omega
      rw [leaf_spec H _ k i lo hi' m p hk b2 b3, M.ok_bind, Nat.add_sub_cancel_left]
    · rw [if_neg hlt, if_neg hlt]

end AC.BP
