import Verif.Proofs.RsBitVector
import Verif.Props.Bits
/-!
# C38: rank and select
-/
namespace AC.Props
open AC

theorem cnt_count {f : Nat → Bool} {L : List Bool} (h : ∀ i, f i = L.getD i false) (b : Bool) :
    ∀ n, n ≤ L.length → cnt (fun i => f i == b) n = (L.take n).count b := by
  intro n
  induction n with
  | zero => intro _; simp [cnt]
  | succ n ih =>
      intro hn
      have e : L.take (n + 1) = L.take n ++ [L[n]] := (List.take_append_getElem (by omega)).symm
      rw [cnt_succ, ih (by omega), e, List.count_append, List.count_singleton, h n, List.getD_eq_getElem?_getD,
        List.getElem?_eq_getElem (by omega)]
      simp only [Option.getD_some]
      cases L[n] <;> cases b <;> rfl

theorem count_true {f : Nat → Bool} {L : List Bool} (h : ∀ i, f i = L.getD i false) (n : Nat) (hn : n ≤ L.length) :
    cnt f n = (L.take n).count true := by
  rw [← cnt_count h true n hn]
  apply cnt_congr
  intro i _; simp

theorem count_false {f : Nat → Bool} {L : List Bool} (h : ∀ i, f i = L.getD i false) (n : Nat) (hn : n ≤ L.length) :
    cnt (fun i => !f i) n = (L.take n).count false := by
  rw [← cnt_count h false n hn]
  apply cnt_congr
  intro i _; cases f i <;> rfl

/-- C38: a bit vector with rank and select, built from any bits, with or without the tables of hints -/
theorem C38_rank_select (L : List Bool) (after : W) (hints hints0 : Bool) (hL : L.length < 2 ^ 63) :
    ∃ r, RS.build (BV.build (builderOf L) after) hints hints0 = .ok r ∧
      r.numOnes = .ok (L.count true) ∧ r.numZeros = .ok (L.count false) ∧
      (∀ i, i ≤ L.length → r.rank i = .ok ((L.take i).count true) ∧ r.rank0 i = .ok ((L.take i).count false)) ∧
      (∀ k, k < L.count true → ∃ p, r.select k = .ok p ∧ L[p]? = some true ∧ (L.take p).count true = k) ∧
      (∀ k, k < L.count false → ∃ p, r.select0 k = .ok p ∧ L[p]? = some false ∧ (L.take p).count false = k) := by
  have hb := holds_builderOf L
  obtain ⟨r, e1, e2, e3⟩ := RS.build_spec hb.wf after hints hints0 (by rw [hb.size]; exact hL)
  have hsz : r.bv.size = L.length := by rw [e2]; exact hb.size
  have hbits : ∀ i, bitAt r.bv.bits i = L.getD i false := by rw [e2]; exact hb.bits
  have hone : ∀ n, n ≤ L.length → ones r.bv.bits n = (L.take n).count true := fun n hn => count_true hbits n hn
  have hzero : ∀ n, n ≤ L.length → cnt (fun i => !bitAt r.bv.bits i) n = (L.take n).count false := fun n hn => count_false hbits n hn
  have hsum : ∀ n, n ≤ L.length → n - (L.take n).count true = (L.take n).count false := by
    intro n hn
    rw [← hone n hn, ← hzero n hn]
    have := cnt_not (bitAt r.bv.bits) n
    unfold ones; omega
  have hno : r.numOnes = .ok (L.count true) := by
    rw [RS.numOnes_spec e3, hsz, hone _ (Nat.le_refl _), List.take_length]
  refine ⟨r, e1, hno, ?_, ?_, ?_, ?_⟩
  · unfold RS.numZeros
    rw [hno, hsz]
    have := hsum L.length (Nat.le_refl _)
    rw [List.take_length] at this
    simp only [M.ok_bind, this]
  · intro i hi
    have hr : r.rank i = .ok ((L.take i).count true) := by rw [RS.rank_spec e3 (by omega), hone i hi]
    refine ⟨hr, ?_⟩
    unfold RS.rank0
    rw [hr]
    simp only [M.ok_bind, hsum i hi]
  · intro k hk
    obtain ⟨p, p1, p2, p3, p4⟩ := RS.select_spec e3 (n := k) (by
      have := hone L.length (Nat.le_refl _)
      unfold ones at this
      rw [hsz, this, List.take_length]; exact hk)
    rw [hsz] at p2
    refine ⟨p, p1, ?_, ?_⟩
    · rw [hbits, List.getD_eq_getElem?_getD, List.getElem?_eq_getElem p2] at p3
      rw [List.getElem?_eq_getElem p2]; exact congrArg some p3
    · rw [← hone p (by omega)]; exact p4
  · intro k hk
    obtain ⟨p, p1, p2, p3, p4⟩ := RS.select0_spec e3 (n := k) (by
      rw [hsz, hzero L.length (Nat.le_refl _), List.take_length]; exact hk)
    rw [hsz] at p2
    refine ⟨p, p1, ?_, ?_⟩
    · dsimp only at p3
      rw [hbits, List.getD_eq_getElem?_getD, List.getElem?_eq_getElem p2] at p3
      rw [List.getElem?_eq_getElem p2]
      simp only [Option.getD_some, Bool.not_eq_true'] at p3
      rw [p3]
    · rw [← hzero p (by omega)]; exact p4

/-- ten bits, with hints; the third one is at position 4 -/
example : [true, false, true, false, true, true, false, false, true, false].length < 2 ^ 63 := by decide

example : (RS.build (BV.build (builderOf [true, false, true, false, true, true, false, false, true, false]) 0) true true >>=
    fun r => do let a ← r.select 2; let b ← r.select0 2; let c ← r.rank 6; .ok (a, b, c)) = .ok (4, 6, 4) := by decide +kernel

end AC.Props
