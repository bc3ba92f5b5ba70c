import Verif.Props.Bits
/-!
# C83: reading a bit vector piece by piece
-/
namespace AC.Props
open AC

/-- a call of the iterator: `get_bits(len)` or `skip_zeros()` -/
inductive BitCall where
  | bits (len : Nat)
  | zeros

/-- the calls, one after the other, with the numbers returned -/
def calls (v : BV) : List BitCall → BI → M (List Nat × BI)
  | [], b => .ok ([], b)
  | .bits len :: cs, b => do
      let (w, b) ← b.getBits v len
      let (ns, b) ← calls v cs b
      .ok (w.toNat :: ns, b)
  | .zeros :: cs, b => do
      let (z, b) ← b.skipZeros v
      let (ns, b) ← calls v cs b
      .ok (z :: ns, b)

/-- What should be returned from position `p` on, and the position reached: `get_bits` returns the next `len` bits, `skip_zeros` the number of zeros before the next one, and
moves after it. -/
inductive Returned (ws : List W) : Nat → List BitCall → List Nat → Nat → Prop where
  | nil {p : Nat} : Returned ws p [] [] p
  | bits {p len q : Nat} {cs : List BitCall} {ns : List Nat} : len ≤ 64 → p + len ≤ 64 * ws.length → Returned ws (p + len) cs ns q →
      Returned ws p (.bits len :: cs) (valueAt ws p len :: ns) q
  | zeros {p z q : Nat} {cs : List BitCall} {ns : List Nat} : p + z < 64 * ws.length → (∀ i, i < z → bitAt ws (p + i) = false) → bitAt ws (p + z) = true →
      Returned ws (p + z + 1) cs ns q → Returned ws p (.zeros :: cs) (z :: ns) q

/-- the calls begin with `skip_zeros`, or do so after some `get_bits(0)` -/
def ZerosNext (cs : List BitCall) : Prop := ∃ k post, cs = List.replicate k (.bits 0) ++ .zeros :: post

/-- the state between two calls: as described by `BI.Inv`, or after 64 bits -/
def Between (v : BV) (stale : Bool) (b : BI) : Prop := if stale then b.avail = 0 else b.Inv v

theorem Between.step_bits {v : BV} {stale : Bool} {b : BI} (h : Between v stale b) {len : Nat} (hl : len ≤ 64) (hb : b.pos + len ≤ 64 * v.bits.length) :
    ∃ w b', b.getBits v len = .ok (w, b') ∧ b'.pos = b.pos + len ∧ w.toNat = valueAt v.bits b.pos len ∧ Between v (len == 64 || (stale && len == 0)) b' := by
  by_cases h0 : len = 0
  · subst h0
    refine ⟨0, b, ?_, rfl, rfl, ?_⟩
    · unfold BI.getBits BI.refill
      rw [if_neg (by omega), M.ok_bind, if_pos (by decide)]
      congr 2
      simp
    · simpa using h
  · have hi : ∃ b1, b.refill v len = .ok b1 ∧ b1.pos = b.pos ∧ len ≤ b1.avail ∧ b1.Inv v := by
      cases stale with
      | false => exact BI.refill_spec v b len hl h hb
      | true =>
          have h : b.avail = 0 := h
          obtain ⟨b', h1, h2, h3, h4⟩ := BI.fillBuf_spec v b (by omega)
          exact ⟨b', by unfold BI.refill; rw [if_pos (by omega)]; exact h1, h2, by omega, h4⟩
    obtain ⟨b1, h1, h2, h3, h4⟩ := hi
    have hr : b1.refill v len = .ok b1 := by unfold BI.refill; rw [if_neg (by omega)]
    have hg : b.getBits v len = b1.getBits v len := by unfold BI.getBits; rw [h1, hr]
    rw [hg]
    by_cases h64 : len = 64
    · subst h64
      obtain ⟨w, b', g1, g2, g3⟩ := BI.getBits64_spec v b1 h4 (by omega)
      refine ⟨w, b', g1, by omega, by rw [g3, h2], ?_⟩
      unfold BI.getBits at g1
      rw [hr, M.ok_bind, if_neg (by decide)] at g1
      cases g1
      have := h4.avail
      show b1.avail - 64 = 0
      omega
    · obtain ⟨w, b', g1, g2, g3, g4⟩ := BI.getBits_spec v b1 len (by omega) h4 (by omega)
      refine ⟨w, b', g1, by omega, ?_, ?_⟩
      · rw [← h2]
        apply toNat_eq_valueAt _ _ _ _ _ (by omega)
        intro j hj
        rw [g4 j]
      · have : (len == 64 || (stale && len == 0)) = false := by simp [h0, h64]
        rw [this]
        exact g3

theorem calls_spec {v : BV} : ∀ {cs : List BitCall} {b : BI} {stale : Bool} {ns : List Nat} {q : Nat}, Between v stale b → Returned v.bits b.pos cs ns q →
    (stale = true → ¬ ZerosNext cs) → (∀ pre post, cs = pre ++ .bits 64 :: post → ¬ ZerosNext post) → ∃ b', calls v cs b = .ok (ns, b') ∧ b'.pos = q
  | [], b, _, _, _, _, h, _, _ => by
      cases h
      exact ⟨b, rfl, rfl⟩
  | .bits len :: cs, b, stale, _, q, hb, h, hs, hn => by
      cases h with
      | @bits _ _ _ _ ns h1 h2 h3 =>
          obtain ⟨w, b', g1, g2, g3, g4⟩ := hb.step_bits h1 h2
          rw [← g2] at h3
          obtain ⟨b'', e1, e2⟩ := calls_spec g4 h3 (by
            intro hst hz
            rw [Bool.or_eq_true, Bool.and_eq_true, beq_iff_eq, beq_iff_eq] at hst
            rcases hst with rfl | ⟨rfl, rfl⟩
            · exact hn [] cs rfl hz
            · obtain ⟨k, post, rfl⟩ := hz
              exact hs rfl ⟨k + 1, post, rfl⟩) (fun pre post e => hn (.bits len :: pre) post (by rw [e]; rfl))
          refine ⟨b'', ?_, e2⟩
          unfold calls
          rw [g1, M.ok_bind]
          dsimp only
          rw [e1, M.ok_bind, g3]
  | .zeros :: cs, b, stale, _, q, hb, h, hs, hn => by
      cases h with
      | @zeros _ z _ _ ns h1 h2 h3 h4 =>
          have hst : stale = false := by
            cases stale with
            | false => rfl
            | true => exact absurd ⟨0, cs, rfl⟩ (hs rfl)
          subst hst
          have hi : b.Inv v := hb
          obtain ⟨b', g1, g2, g3⟩ := BI.skipZeros_spec v b (b.pos + z) hi h1 h3 (by omega) (fun i i1 i2 => by
            have := h2 (i - b.pos) (by omega)
            rwa [show b.pos + (i - b.pos) = i by omega] at this)
          rw [← g2] at h4
          obtain ⟨b'', e1, e2⟩ := calls_spec (stale := false) g3 h4 (by simp) (fun pre post e => hn (.zeros :: pre) post (by rw [e]; rfl))
          refine ⟨b'', ?_, e2⟩
          unfold calls
          rw [g1, M.ok_bind]
          dsimp only
          rw [e1, M.ok_bind, Nat.add_sub_cancel_left]

/-- **C83**: the calls return the bits of the vector in their order. Missing from the claim: `skip_zeros` after `get_bits(64)`, with nothing or only `get_bits(0)` in between. -/
theorem C83_partial {v : BV} {p q : Nat} {cs : List BitCall} {ns : List Nat} (h : Returned v.bits p cs ns q)
    (hn : ∀ pre post, cs = pre ++ .bits 64 :: post → ¬ ZerosNext post) : ∃ b, calls v cs (BI.mk' p) = .ok (ns, b) ∧ b.pos = q :=
  calls_spec (stale := false) (BI.mk'_inv v p) h (by simp) hn

/-- After `get_bits(64)`, `skip_zeros` looks at the bits that have been read again: if they are not all zero, it returns the number of zeros they begin with, whatever
follows them. -/
theorem C83_false {v : BV} {p z : Nat} (hp : p + 64 ≤ 64 * v.bits.length) (hz : z < 64) (h0 : ∀ i, i < z → bitAt v.bits (p + i) = false) (h1 : bitAt v.bits (p + z) = true) :
    ∃ b, calls v [.bits 64, .zeros] (BI.mk' p) = .ok ([valueAt v.bits p 64, z], b) ∧ b.pos = p + 64 + z + 1 := by
  obtain ⟨b1, r1, r2, r3, r4⟩ := BI.refill_spec v (BI.mk' p) 64 (by omega) (BI.mk'_inv v p) hp
  have e2 : b1.pos = p := r2
  have hbuf : ∀ j, j < 64 → b1.buf.getLsbD j = bitAt v.bits (p + j) := by
    intro j hj
    rw [r4.buf j hj, e2, decide_eq_true (by omega : j < b1.avail), Bool.true_and]
  have hw : b1.buf.toNat = valueAt v.bits p 64 := by
    apply toNat_eq_valueAt _ _ _ _ _ (by omega)
    intro j hj
    rw [hbuf j hj, decide_eq_true hj, Bool.true_and]
  have hl : b1.buf.lsb = some z := by
    cases hl : b1.buf.lsb with
    | none =>
        have := W.lsb_none _ hl z
        rw [hbuf z hz, h1] at this
        cases this
    | some l =>
        obtain ⟨a1, a2, a3⟩ := W.lsb_some _ _ hl
        rcases Nat.lt_trichotomy l z with h | h | h
        · rw [hbuf l a1, h0 l h] at a2; cases a2
        · rw [h]
        · have := a3 z h
          rw [hbuf z hz, h1] at this
          cases this
  have hne : b1.buf ≠ 0 := by
    intro e
    have := hbuf z hz
    rw [e, h1] at this
    simp at this
  refine ⟨⟨b1.pos + 64 + (z + 1), (b1.buf >>> z) >>> 1, (b1.avail - 64 + (2 ^ 64 - (z + 1))) % 2 ^ 64⟩, ?_, ?_⟩
  · unfold calls BI.getBits
    rw [r1, M.ok_bind, if_neg (by decide), M.ok_bind]
    dsimp only
    unfold calls BI.skipZeros BI.skipLoop
    dsimp only
    rw [if_neg hne, M.ok_bind]
    dsimp only
    rw [hl, M.ok_bind]
    dsimp only [Option.getD_some]
    unfold calls
    rw [M.ok_bind, M.ok_bind, hw, Nat.zero_add]
  · dsimp only
    omega

theorem Returned.inside {ws : List W} {p len q : Nat} {cs : List BitCall} {ns : List Nat} (h : Returned ws p (.bits len :: cs) ns q) : p + len ≤ 64 * ws.length := by
  cases h with
  | bits _ h _ => exact h

/-- the number of zeros that follow is lost -/
theorem C83_wrong {v : BV} {p z z' n q : Nat} (hz : z < 64) (h0 : ∀ i, i < z → bitAt v.bits (p + i) = false) (h1 : bitAt v.bits (p + z) = true)
    (h : Returned v.bits p [.bits 64, .zeros] [n, z'] q) (hne : z' ≠ z) (b : BI) : calls v [.bits 64, .zeros] (BI.mk' p) ≠ .ok ([n, z'], b) := by
  intro e
  obtain ⟨b', e', _⟩ := C83_false h.inside hz h0 h1
  rw [e'] at e
  injection e with e
  injection e with e _
  injection e with _ e
  injection e with e _
  exact hne e.symm

/-- the words 4 and 16: three bits, the zeros up to the next one, 64 bits -/
example : ∃ b, calls ⟨[4, 16, 7], 192, 0⟩ [.bits 3, .zeros, .bits 64] (BI.mk' 0) = .ok ([4, 65, 7 * 2 ^ 59], b) ∧ b.pos = 133 := by
  refine C83_partial (.bits (by decide) (by decide) (.zeros (z := 65) (by decide) (by decide) (by decide) ?_)) ?_
  · exact .bits (ns := []) (by decide) (by decide) .nil
  · intro pre post e hz
    obtain ⟨k, post', rfl⟩ := hz
    rcases pre with _ | ⟨_, _ | ⟨_, _ | ⟨_, _⟩⟩⟩ <;> simp at e

/-- the words 4 and 16: after the first word, 4 zeros follow, but 2 are returned -/
example : Returned [4, 16] 0 [.bits 64, .zeros] [4, 4] 69 ∧ ∃ b, calls ⟨[4, 16], 128, 0⟩ [.bits 64, .zeros] (BI.mk' 0) = .ok ([4, 2], b) ∧ b.pos = 67 :=
  ⟨.bits (len := 64) (by decide) (by decide) (.zeros (by decide) (by decide) (by decide) .nil), C83_false (v := ⟨[4, 16], 128, 0⟩) (z := 2) (by decide) (by decide) (by decide) (by decide)⟩

end AC.Props
