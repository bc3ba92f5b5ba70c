import Verif.Proofs.CefIter
import Verif.Proofs.Codes
import Verif.Proofs.TrieRep
import Verif.Model.InvertedIndex
/-!
# A posting list preceded by its length, and sequences of pointers
-/
namespace AC

theorem lowerBits_bound (u n : Nat) (hn : 0 < n) : u / 2 ^ CEF.lowerBits u n ≤ 2 * n := by
  unfold CEF.lowerBits
  split
  · rename_i h
    have h0 : u / n ≠ 0 := by
      have := Nat.div_pos (Nat.le_of_lt h) hn; omega
    have h1 : u / n < 2 ^ (Nat.log2 (u / n) + 1) := Nat.lt_log2_self
    have h2 : u < n * 2 ^ (Nat.log2 (u / n) + 1) := by
      have := Nat.lt_mul_div_succ u hn
      exact Nat.lt_of_lt_of_le this (Nat.mul_le_mul_left _ h1)
    have : u / 2 ^ msbNat (u / n) < 2 * n := by
      rw [Nat.div_lt_iff_lt_mul (Nat.two_pow_pos _)]
      rw [Nat.pow_succ] at h2
      unfold msbNat
      calc u < n * (2 ^ (u / n).log2 * 2) := h2
        _ = 2 * n * 2 ^ (u / n).log2 := by rw [Nat.mul_comm (2 ^ _) 2, ← Nat.mul_assoc, Nat.mul_comm n 2]
    omega
  · simp; omega

/-- the number of bits of a list -/
theorem offsets_last_le {base u : Nat} {vs : List Nat} (h : CEF.Valid u vs) :
    (CEF.offsets base u vs.length).last ≤ base + 128 * vs.length + 128 := by
  have k := CEF.offsets_ok base u vs h
  have hn : 0 < vs.length := List.length_pos_iff.mpr h.ne
  have hb := lowerBits_bound u vs.length hn
  have h56 := k.ps56
  have l56 := k.l56
  have e1 : (CEF.offsets base u vs.length).last = base +
      (vs.length + u / 2 ^ CEF.lowerBits u vs.length + 2 - vs.length) / 512 * (CEF.offsets base u vs.length).psize +
      vs.length / 256 * (CEF.offsets base u vs.length).psize + (vs.length + u / 2 ^ CEF.lowerBits u vs.length + 2) +
      vs.length * (CEF.offsets base u vs.length).l := rfl
  rw [e1]
  generalize (CEF.offsets base u vs.length).psize = ps at *
  generalize (CEF.offsets base u vs.length).l = l at *
  generalize u / 2 ^ CEF.lowerBits u vs.length = q at *
  generalize vs.length = n at *
  have a1 : (n + q + 2 - n) / 512 * ps ≤ (n + q + 2 - n) / 512 * 56 := Nat.mul_le_mul_left _ h56
  have a2 : n / 256 * ps ≤ n / 256 * 56 := Nat.mul_le_mul_left _ h56
  have a3 : n * l ≤ n * 56 := Nat.mul_le_mul_left _ (Nat.le_of_lt l56)
  omega

theorem GammaAt.frame {ws ws' : List W} {p : Nat} {n : W} (h : GammaAt ws p n)
    (he : ∀ i, p ≤ i → i < p + gammaLen n → bitAt ws' i = bitAt ws i) : GammaAt ws' p n := by
  unfold GammaAt at h ⊢
  unfold gammaLen at he
  simp only at h ⊢
  obtain ⟨g0, g1, g2, g3⟩ := h
  refine ⟨g0, ?_, ?_, ?_⟩
  · intro j hj; rw [he _ (by omega) (by omega)]; exact g1 j hj
  · rw [he _ (by omega) (by omega)]; exact g2
  · intro j hj; rw [he _ (by omega) (by omega)]; exact g3 j hj

theorem gammaLen_le (n : W) : gammaLen n ≤ 127 := by
  unfold gammaLen msbNat
  by_cases h : (n + 1).toNat = 0
  · rw [h]; simp [Nat.log2_zero]
  · have := (Nat.log2_lt h).mpr (n + 1).isLt
    omega

/-- the number written for the length of a list -/
def lenW (vs : List Nat) : W := BitVec.ofNat 64 vs.length - 1

theorem lenW_add (vs : List Nat) : lenW vs + 1 = BitVec.ofNat 64 vs.length := by
  unfold lenW; exact BitVec.sub_add_cancel _ _

theorem lenW_ne {u : Nat} {vs : List Nat} (h : CEF.Valid u vs) : lenW vs + 1 ≠ 0 := by
  rw [lenW_add]
  intro hc
  have hn : 0 < vs.length := List.length_pos_iff.mpr h.ne
  have := h.small
  have := congrArg BitVec.toNat hc
  rw [BitVec.toNat_ofNat, Nat.mod_eq_of_lt (by omega)] at this
  rw [show (0 : BitVec 64).toNat = 0 from rfl] at this; omega

/-- the number of bits up to the end of a list written at `p` -/
def listEnd (p u : Nat) (vs : List Nat) : Nat := (CEF.offsets (p + gammaLen (lenW vs)) u vs.length).last

theorem listEnd_le {p u : Nat} {vs : List Nat} (h : CEF.Valid u vs) : listEnd p u vs ≤ p + 128 * vs.length + 256 := by
  have := offsets_last_le (base := p + gammaLen (lenW vs)) h
  have := gammaLen_le (lenW vs)
  unfold listEnd; omega

/-- a list with its length is stored at bit `p` -/
structure ListAt (bits : List W) (p u : Nat) (vs : List Nat) : Prop where
  len : GammaAt bits p (lenW vs)
  list : CEF.Rep bits (p + gammaLen (lenW vs)) u vs

theorem ListAt.le_end {bits : List W} {p u : Nat} {vs : List Nat} (h : ListAt bits p u vs) :
    p + gammaLen (lenW vs) ≤ listEnd p u vs := by
  have k := CEF.offsets_ok (p + gammaLen (lenW vs)) u vs h.list.valid
  obtain ⟨o1, o2, o3, o4⟩ := k.order
  have : (CEF.offsets (p + gammaLen (lenW vs)) u vs.length).p0 = p + gammaLen (lenW vs) := rfl
  unfold listEnd; omega

theorem ListAt.frame {bits bits' : List W} {p u : Nat} {vs : List Nat} (h : ListAt bits p u vs)
    (hf : listEnd p u vs ≤ 64 * bits'.length)
    (he : ∀ i, p ≤ i → i < listEnd p u vs → bitAt bits' i = bitAt bits i) : ListAt bits' p u vs := by
  have := h.le_end
  exact ⟨h.len.frame (fun i h1 h2 => he i h1 (by omega)), h.list.frame hf (fun i h1 h2 => he i (by omega) h2)⟩

theorem wf_room {b : BVB} (h : b.WF) : b.size ≤ 64 * b.bits.length := by
  have := h.len
  unfold wordsFor at this; omega

theorem writeList_spec (b : BVB) (u : Nat) (vs : List Nat) (hw : b.WF) (h : CEF.Valid u vs) :
    ∃ b1 b2, writeGammaNonzero b (BitVec.ofNat 64 vs.length) = .ok b1 ∧ CEF.build b1 u vs = .ok b2 ∧ b2.WF ∧
      b2.size = listEnd b.size u vs ∧ b.size ≤ b2.size ∧ (∀ i, i < b.size → bitAt b2.bits i = bitAt b.bits i) ∧
      ListAt b2.bits b.size u vs := by
  obtain ⟨b1, e1, e2, e3, e4, e5⟩ := writeGamma_spec b (lenW vs) hw (lenW_ne h)
  obtain ⟨b2, f1, f2, f3, f4, f5, f6⟩ := CEF.build_spec b1 u vs e2 h
  refine ⟨b1, b2, e1, f1, f2, by rw [f3, e3]; rfl, by omega, fun i hi => by rw [f5 i (by omega), e4 i hi], ?_, ?_⟩
  · exact e5.frame (fun i _ h2 => f5 i (by omega))
  · rw [← e3]; exact f6

theorem readList_spec {v : BV} {p u : Nat} {vs : List Nat} (h : ListAt v.bits p u vs) :
    ∃ it it', readGammaNonzero v (BI.mk' p) = .ok (BitVec.ofNat 64 vs.length, it) ∧
      (BitVec.ofNat 64 vs.length : W).toNat = vs.length ∧
      CEI.mk' v it.pos u vs.length = .ok it' ∧ CEF.At v (p + gammaLen (lenW vs)) u vs it' 0 := by
  have hle := h.le_end
  have hf := h.list.fits
  have hp : (BI.mk' p).pos = p := rfl
  obtain ⟨it, e1, e2, _⟩ := readGamma_spec v (BI.mk' p) (lenW vs) (BI.mk'_inv v p) h.len (by rw [hp]; unfold listEnd at hle; omega)
  obtain ⟨it', f1, f2⟩ := CEF.mk'_spec h.list
  refine ⟨it, it', ?_, ?_, ?_, f2⟩
  · unfold readGammaNonzero
    rw [e1]
    simp only [M.ok_bind]
    rw [lenW_add]
  · have := h.list.valid.small
    rw [BitVec.toNat_ofNat, Nat.mod_eq_of_lt (by omega)]
  · rw [e2, hp]; exact f1

end AC
