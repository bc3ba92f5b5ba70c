import Verif.Proofs.EliasFano
import Verif.Proofs.CompactVector
/-! # Functions of the containers that the query algorithms do not call: `set` of the builder of fixed-width vectors, `next()`
of the iterator of Elias-Fano sequences -/
namespace AC

/-- `set` does to the words what `set_bits` of a builder of bit vectors does -/
theorem CVB.set_eq (b : CVB) (i : Nat) (v : W) (hw : b.width ≠ 0) :
    b.set i v = (BVB.setBits ⟨b.bits, 0⟩ (i * b.width) v b.width).map (fun r => { b with bits := r.bits }) := by
  unfold CVB.set BVB.setBits
  rw [if_neg hw]
  dsimp only
  cases rd b.bits (i * b.width / 64) with
  | error f => rfl
  | ok w =>
      simp only [M.ok_bind]
      cases wr b.bits (i * b.width / 64)
        ((w &&& ~~~(maskW b.width <<< (i * b.width % 64))) ||| (v <<< (i * b.width % 64))) with
      | error f => rfl
      | ok bits =>
          simp only [M.ok_bind]
          split
          · cases rd bits (i * b.width / 64 + 1) with
            | error f => rfl
            | ok x =>
                simp only [M.ok_bind]
                cases wr bits (i * b.width / 64 + 1)
                  ((x &&& ~~~(maskW b.width >>> (64 - i * b.width % 64))) ||| (v >>> (64 - i * b.width % 64))) with
                | error f => rfl
                | ok y => rfl
          · rfl

theorem CVB.set_spec (b : CVB) (i : Nat) (v : W) (h1 : 1 ≤ b.width) (h64 : b.width ≤ 64) (vs : List W) (after : W)
    (h : (b.done after).Rep vs b.width) (hi : i < vs.length) (hv : v.toNat < 2 ^ b.width) :
    ∃ b', b.set i v = .ok b' ∧ b'.width = b.width ∧ (b'.done after).Rep (vs.set i v) b.width := by
  have hb := h.bound hi
  obtain ⟨r, r1, r2, r3, r4⟩ := BVB.setBits_spec ⟨b.bits, 0⟩ (i * b.width) v b.width hb h64 hv
  rw [CVB.set_eq b i v (by omega), r1]
  refine ⟨_, rfl, rfl, ⟨h1, h64, ?_, rfl, rfl, ?_, ?_⟩⟩
  · rw [List.length_set]; exact h.size
  · rw [List.length_set, ← h.len]; exact r3
  · intro j hj
    rw [List.length_set] at hj
    show valueAt r.bits (j * b.width) b.width = _
    by_cases hji : i = j
    · subst hji
      rw [List.getElem_set_self]
      apply valueAt_of_getLsbD
      intro k hk
      rw [r4, if_pos (by omega)]
      congr 1; omega
    · rw [List.getElem_set_ne hji, ← h.field j hj]
      apply valueAt_congr
      intro k hk
      rw [r4, if_neg]
      · rfl
      · intro ⟨c1, c2⟩
        rcases Nat.lt_or_gt_of_ne hji with hlt | hgt
        · have : (i + 1) * b.width ≤ j * b.width := Nat.mul_le_mul_right _ (by omega)
          rw [Nat.add_mul, Nat.one_mul] at this
          omega
        · have : (j + 1) * b.width ≤ i * b.width := Nat.mul_le_mul_right _ (by omega)
          rw [Nat.add_mul, Nat.one_mul] at this
          omega

theorem CVB.sets_spec (after : W) : ∀ (os : List (Nat × W)) (b : CVB) (vs : List W), 1 ≤ b.width → b.width ≤ 64 →
    (b.done after).Rep vs b.width → (∀ o ∈ os, o.1 < vs.length ∧ o.2.toNat < 2 ^ b.width) →
    ∃ b', b.sets os = .ok b' ∧ b'.width = b.width ∧
      (b'.done after).Rep (os.foldl (fun l o => l.set o.1 o.2) vs) b.width := by
  intro os
  induction os with
  | nil => intro b vs _ _ h _; exact ⟨b, rfl, rfl, h⟩
  | cons o os ih =>
      intro b vs h1 h64 h ho
      obtain ⟨b1, e1, e2, e3⟩ := b.set_spec o.1 o.2 h1 h64 vs after h (ho o (by simp)).1 (ho o (by simp)).2
      obtain ⟨b2, f1, f2, f3⟩ := ih b1 (vs.set o.1 o.2) (by omega) (by omega) (by rw [e2]; exact e3)
        (by
          intro x hx
          rw [List.length_set, e2]
          exact ho x (by simp [hx]))
      refine ⟨b2, ?_, by omega, by rw [e2] at f3; exact f3⟩
      obtain ⟨i, v⟩ := o
      simp only [CVB.sets, e1, M.ok_bind, f1]

theorem CVB.mk'_rep (n w : Nat) (after : W) (h1 : 1 ≤ w) (h64 : w ≤ 64) :
    ∃ b, CVB.mk' n w = .ok b ∧ b.width = w ∧ (b.done after).Rep (List.replicate n 0) w := by
  unfold CVB.mk'
  rw [if_neg (by omega)]
  refine ⟨_, rfl, rfl, ⟨h1, h64, by simp [CVB.done], rfl, rfl, by simp [CVB.done], ?_⟩⟩
  intro i hi
  apply valueAt_of_getLsbD
  intro j hj
  rw [List.getElem_replicate]
  show bitAt (List.replicate _ 0) _ = _
  unfold bitAt
  rw [List.getD_eq_getElem?_getD, List.getElem?_replicate]
  split <;> simp

theorem CVB.fill_rep (vs : List W) (w : Nat) (after : W) (h1 : 1 ≤ w) (h64 : w ≤ 64) :
    ∃ b, (CVB.mk' vs.length w >>= fun b => b.fill vs) = .ok b ∧ b.width = w ∧ (b.done after).Rep vs w := by
  unfold CVB.mk'
  rw [if_neg (by omega)]
  simp only [M.ok_bind]
  obtain ⟨b, b1, b2, b3, b4, b5, b6⟩ := CVB.fill_spec vs ⟨vs.length, w, 0, 0, List.replicate (wordsFor (vs.length * w)) 0⟩ 0
    ⟨h1, h64, by simp, by simp, by simp⟩ (by simp)
  refine ⟨b, b1, b4, ⟨h1, h64, b3, b4, by simp only [CVB.done, b4], ?_, ?_⟩⟩
  · have := b2.len
    rw [b3, b4] at this
    exact this
  · intro i hi
    apply valueAt_of_getLsbD
    intro j hj
    have := b6 i hi j hj
    simpa [CVB.done] using this

/-! ## `next()` of the iterator -/

/-- state of an iterator about to return element `j` with `next()`: `avail` chunks are left in the buffer -/
structure EFI.Walk (e : EF) (vs : List W) (x : EFI) (j : Nat) : Prop where
  pos : x.pos = j
  high : ∀ hj : j < vs.length, x.high = vs[j].toNat / 2 ^ e.l + j
  it : ∀ hj : j < vs.length, x.it.Inv e.high (vs[j].toNat / 2 ^ e.l + j + 1)
  chunks : e.l ≠ 0 → x.chunks = 64 / e.l
  fits : e.l ≠ 0 → x.avail * e.l ≤ 64
  many : e.l = 0 → vs.length ≤ x.avail + j
  buf : ∀ k, k < x.avail * e.l → x.lowBuf.getLsbD k = bitAt e.low.bits (j * e.l + k)

theorem EFI.Inv.walk {e : EF} {vs : List W} {x : EFI} {j : Nat} (h : x.Inv e vs j) : x.Walk e vs j := by
  have hs : (x.avail + 1) * e.l = x.avail * e.l + e.l := by rw [Nat.add_mul, Nat.one_mul]
  refine ⟨h.pos, h.high, h.it, h.chunks, ?_, h.many, ?_⟩
  · intro h0; have := h.fits h0; omega
  · intro k hk; exact h.buf k (by omega)

/-- after the refill at the beginning of `next()`, the buffer starts with the low bits of element `j` and holds `avail` more
chunks -/
theorem EF.refill_walk {e : EF} {vs : List W} (h : e.Rep vs) (x : EFI) (j : Nat) (hj : j < vs.length) (hi : x.Walk e vs j) :
    ∃ x', e.refill x = .ok x' ∧ x'.pos = j ∧ x'.high = x.high ∧ x'.it = x.it ∧ x'.chunks = x.chunks ∧
      (e.l ≠ 0 → (x'.avail + 1) * e.l ≤ 64) ∧ (e.l = 0 → vs.length ≤ x'.avail + (j + 1)) ∧
      (∀ k, k < (x'.avail + 1) * e.l → x'.lowBuf.getLsbD k = bitAt e.low.bits (j * e.l + k)) := by
  have hl := h.l64
  unfold EF.refill
  by_cases ha : x.avail = 0
  · rw [if_pos ha]
    by_cases h0 : e.l = 0
    · have := hi.many h0; omega
    · have := EF.mul_bound h j hj
      rw [hi.pos]
      obtain ⟨w, w1, w2⟩ := e.low.getWord64_spec (j * e.l) (by omega)
      rw [w1]
      simp only [M.ok_bind]
      obtain ⟨c1, c2⟩ := EF.chunk_bound e.l h0 hl
      have hch := hi.chunks h0
      have h64 : 64 / e.l ≤ 64 := Nat.div_le_self _ _
      have hav : (x.chunks + 2 ^ 64 - 1) % 2 ^ 64 = 64 / e.l - 1 := by
        rw [hch, show 64 / e.l + 2 ^ 64 - 1 = 64 / e.l - 1 + 2 ^ 64 by omega, Nat.add_mod_right,
          Nat.mod_eq_of_lt (by omega)]
      refine ⟨_, rfl, rfl, rfl, rfl, rfl, ?_, fun hc => absurd hc h0, ?_⟩
      · intro _; simp only [hav]; exact c1
      · simp only [hav]
        intro k hk
        exact w2 k (by omega)
  · rw [if_neg ha]
    refine ⟨_, rfl, hi.pos, rfl, rfl, rfl, ?_, ?_, ?_⟩
    · intro h0
      simp only [show x.avail - 1 + 1 = x.avail by omega]
      exact hi.fits h0
    · intro h0
      have := hi.many h0
      simp only; omega
    · simp only [show x.avail - 1 + 1 = x.avail by omega]
      exact hi.buf

theorem EF.value_walk {e : EF} {vs : List W} (h : e.Rep vs) (x : EFI) (j : Nat) (hj : j < vs.length) (hp : x.pos = j)
    (hh : x.high = vs[j].toNat / 2 ^ e.l + j)
    (hb : ∀ k, k < (x.avail + 1) * e.l → x.lowBuf.getLsbD k = bitAt e.low.bits (j * e.l + k)) : e.value x = vs[j] := by
  unfold EF.value
  rw [hh, hp, Nat.add_sub_cancel]
  apply EF.value_eq e.l vs[j] _ h.l64
  intro k hk
  rw [BitVec.getLsbD_and, maskW_getLsbD _ _ (by have := h.l64; omega)]
  by_cases hkl : k < e.l
  · rw [hb k (by rw [Nat.add_mul, Nat.one_mul]; omega), h.low j hj k hkl]
  · rw [decide_eq_false hkl]; simp

/-- `next()` before the last element: the element under the iterator, which moves to the following one -/
theorem EF.next_spec {e : EF} {vs : List W} (h : e.Rep vs) (x : EFI) (j : Nat) (hj : j + 1 < vs.length) (hi : x.Walk e vs j) :
    ∃ x', e.next x = .ok (vs[j].toNat, x') ∧ x'.Walk e vs (j + 1) := by
  have hl := h.l64
  obtain ⟨y, y1, y2, y3, y4, y5, y6, y7, y8⟩ := EF.refill_walk h x j (by omega) hi
  have hh := hi.high (by omega)
  have hb := h.bound (j + 1) hj
  have hhl := h.highLen
  obtain ⟨u, u1, u2, u3⟩ := UI.next_spec e.high x.it _ (vs[j + 1].toNat / 2 ^ e.l + (j + 1)) (hi.it (by omega)) (by omega)
    (EF.high_mono h j hj) (h.high (j + 1) hj).1 (EF.high_gap h j hj)
  unfold EF.next
  rw [hi.pos, if_neg (by rw [h.size]; omega), y1]
  simp only [M.ok_bind]
  rw [EF.value_walk h y j (by omega) y2 (by rw [y3, hh]) y8, y4, u1]
  simp only [M.ok_bind]
  refine ⟨_, rfl, ⟨by simp only [y2], fun _ => u2, fun _ => u3, fun h0 => by simp only [y5]; exact hi.chunks h0, ?_, y7, ?_⟩⟩
  · intro h0
    have := y6 h0
    rw [Nat.add_mul, Nat.one_mul] at this
    simp only; omega
  · intro k hk
    simp only at hk ⊢
    rw [BitVec.getLsbD_ushiftRight, y8 _ (by rw [Nat.add_mul, Nat.one_mul]; omega), Nat.add_mul, Nat.one_mul]
    congr 1; omega

/-- `next()` of a unary iterator after the last one: the words are read until the end of the buffer and beyond -/
theorem nextLoop_end (v : BV) (c : Nat) (hz : ∀ i, c ≤ i → bitAt v.bits i = false) :
    ∀ (fuel pos : Nat) (buf : W), pos / 64 < v.bits.length → v.bits.length ≤ pos / 64 + fuel →
      (∀ j, j < 64 → buf.getLsbD j = (bitAt v.bits (64 * (pos / 64) + j) && decide (c ≤ 64 * (pos / 64) + j))) →
      c ≤ 64 * (pos / 64) + 64 → UI.nextLoop v fuel pos buf = .error .oob := by
  intro fuel
  induction fuel with
  | zero => intro pos buf h1 h2; omega
  | succ fuel ih =>
      intro pos buf h1 h2 h3 h4
      unfold UI.nextLoop
      cases hl : buf.lsb with
      | some l =>
          obtain ⟨a1, a2, a3⟩ := W.lsb_some _ _ hl
          rw [h3 l a1] at a2
          simp only [Bool.and_eq_true, decide_eq_true_eq] at a2
          rw [hz _ a2.2] at a2
          cases a2.1
      | none =>
          have e : (pos + 64) / 64 = pos / 64 + 1 := by omega
          by_cases hw : (pos + 64) / 64 < v.bits.length
          · simp only [rd_ok hw, M.ok_bind]
            apply ih (pos + 64) _ hw (by omega) _ (by omega)
            intro j hj
            rw [bitAt_word _ _ _ hw hj]
            have : c ≤ 64 * ((pos + 64) / 64) + j := by omega
            rw [decide_eq_true this, Bool.and_true]
          · have : rd v.bits ((pos + 64) / 64) = .error .oob := by
              unfold rd
              rw [List.getElem?_eq_none (by omega)]
            simp only [this, M.error_bind]

theorem UI.next_end (v : BV) (u : UI) (c : Nat) (hi : u.Inv v c) (hz : ∀ i, c ≤ i → bitAt v.bits i = false) :
    UI.next v u = .error .oob := by
  unfold UI.next
  rw [nextLoop_end v c hz (v.bits.length + 1) u.position u.buf hi.inb (by omega) hi.buf hi.hi]
  rfl

/-- nothing is set after the one of the last element -/
theorem EF.high_end {e : EF} {vs : List W} (h : e.Rep vs) (j : Nat) (hj : j < vs.length) (hl : j + 1 = vs.length) :
    ∀ i, vs[j].toNat / 2 ^ e.l + j + 1 ≤ i → bitAt e.high.bits i = false := by
  intro i hi
  cases hb : bitAt e.high.bits i with
  | false => rfl
  | true =>
      have hp := h.pad i hb
      have s1 := h.high j hj
      have c1 := cnt_lt (bitAt e.high.bits) (show vs[j].toNat / 2 ^ e.l + j < i by omega) s1.1
      have c2 := cnt_lt (bitAt e.high.bits) hp hb
      have := s1.2
      have := h.total
      omega

/-- `next()` on the last element reads outside of the bitmap -/
theorem EF.next_last {e : EF} {vs : List W} (h : e.Rep vs) (x : EFI) (j : Nat) (hj : j < vs.length) (hl : j + 1 = vs.length)
    (hi : x.Walk e vs j) : e.next x = .error .oob := by
  obtain ⟨y, y1, y2, y3, y4, y5, y6, y7, y8⟩ := EF.refill_walk h x j hj hi
  unfold EF.next
  rw [hi.pos, if_neg (by rw [h.size]; omega), y1]
  simp only [M.ok_bind]
  rw [y4, UI.next_end e.high x.it _ (hi.it hj) (EF.high_end h j hj hl)]
  rfl

theorem EF.walk_spec {e : EF} {vs : List W} (h : e.Rep vs) : ∀ (n j : Nat) (x : EFI), j < vs.length → x.Walk e vs j →
    e.walk n x = if j + n < vs.length then .ok (((vs.drop j).take n).map BitVec.toNat) else .error .oob := by
  intro n
  induction n with
  | zero => intro j x hj _; rw [if_pos (by omega)]; simp [EF.walk]
  | succ n ih =>
      intro j x hj hx
      unfold EF.walk
      by_cases hl : j + 1 = vs.length
      · rw [EF.next_last h x j hj hl hx, if_neg (by omega)]
        rfl
      · obtain ⟨y, y1, y2⟩ := EF.next_spec h x j (by omega) hx
        rw [y1]
        simp only [M.ok_bind]
        rw [ih (j + 1) y (by omega) y2]
        by_cases hlt : j + 1 + n < vs.length
        · rw [if_pos hlt, if_pos (by omega)]
          simp only [M.ok_bind]
          rw [List.drop_eq_getElem_cons (show j < vs.length by omega), List.take_succ_cons, List.map_cons]
        · rw [if_neg hlt, if_neg (by omega)]
          rfl

end AC
