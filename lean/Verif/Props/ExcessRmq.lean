import Verif.Proofs.BpRmq
import Verif.Props.RankSelect
/-!
# C39: the least excess over a range
-/
namespace AC.Props
open AC

/-- opening minus closing parentheses among the first `i` -/
def excessOf (L : List Bool) (i : Nat) : Int := ((L.take i).count true : Int) - (L.take i).count false

theorem exW_excessOf {ws : List W} {L : List Bool} (h : ∀ i, bitAt ws i = L.getD i false) (i : Nat) (hi : i ≤ L.length) :
    exW ws i = excessOf L i := by
  unfold exW exc excessOf
  have h1 := count_true h i hi
  have h2 := count_false h i hi
  have := cnt_not (bitAt ws) i
  omega

/-- C39: for every sequence of parentheses and every `a ≤ b` within it, the leftmost position with the least excess -/
theorem C39_excess_rmq (L : List Bool) (after : W) (hints hints0 : Bool) (h0 : L ≠ []) (hL : L.length < 2 ^ 31) :
    ∃ v, BP.build (BV.build (builderOf L) after) hints hints0 = .ok v ∧
      ∀ a b, a ≤ b → b ≤ L.length → ∃ p m, v.excessRmq a b = .ok (p, m) ∧
        a ≤ p ∧ p ≤ b ∧ m = excessOf L p ∧
        (∀ q, a ≤ q → q ≤ b → m ≤ excessOf L q) ∧ (∀ q, a ≤ q → q < p → m < excessOf L q) := by
  have hb := holds_builderOf L
  have hpos : 0 < L.length := List.length_pos_iff.mpr h0
  obtain ⟨v, v1, v2, v3⟩ := BP.build_spec hb.wf after hints hints0 (by rw [hb.size]; exact hL) (by rw [hb.size]; exact hpos)
  have hsz : v.rs.bv.size = L.length := by rw [v2]; exact hb.size
  have hbits : ∀ i, bitAt v.rs.bv.bits i = L.getD i false := by rw [v2]; exact hb.bits
  refine ⟨v, v1, ?_⟩
  intro a b hab hbl
  obtain ⟨m, p, e1, e2⟩ := BP.excessRmq_spec v3 hab (by omega)
  have p1 := e2.lo_le
  have p2 := e2.le_hi
  refine ⟨p, m, e1, p1, p2, ?_, ?_, ?_⟩
  · rw [← exW_excessOf hbits p (by omega)]; exact e2.val.symm
  · intro q q1 q2
    rw [← exW_excessOf hbits q (by omega)]; exact e2.le q q1 q2
  · intro q q1 q2
    rw [← exW_excessOf hbits q (by omega)]; exact e2.left q q1 q2

/-- in `(()())`, the least excess between positions 1 and 5 is 1, first reached at position 1; between 2 and 5 it is at 3 -/
example : [true, true, false, true, false, false] ≠ [] ∧ [true, true, false, true, false, false].length < 2 ^ 31 := by decide

example : (BP.build (BV.build (builderOf [true, true, false, true, false, false]) 0) false true >>=
    fun v => do let x ← v.excessRmq 1 5; let y ← v.excessRmq 2 5; .ok (x, y)) = .ok ((1, 1), (3, 1)) := by decide +kernel

end AC.Props
