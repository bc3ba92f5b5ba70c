import Verif.Proofs.DebugParens
import Verif.Props.DebugRmq
import Verif.Props.Parens
/-!
# C88: matching parentheses in a build with assertions
-/
namespace AC.Props
open AC

/-- **C88**, matching parentheses: in a build with assertions, in every sequence in which no prefix has more closing than opening
parentheses, `find_close`, `find_open` and `enclose` have the answers of C52 wherever there is a match; `find_close` and
`enclose` of a closing parenthesis or beyond the end, and `find_open` of the first position, stop at an assertion -/
theorem C88_matching (L : List Bool) (after : W) (hints hints0 : Bool) (h0 : L ≠ []) (hL : L.length < 2 ^ 31)
    (hp : ∀ i, i ≤ L.length → 0 ≤ excessOf L i) :
    ∃ v, BP.buildD (BV.build (builderOf L) after) hints hints0 = .ok v ∧
      (∀ pre inner post, L = pre ++ true :: inner ++ false :: post → Balanced inner →
        v.findCloseD pre.length = .ok (pre.length + 1 + inner.length) ∧
        v.findOpenD (pre.length + 1 + inner.length) = .ok pre.length) ∧
      (∀ pre inner post, L = pre ++ true :: inner ++ true :: post → Balanced inner →
        v.encloseD (pre.length + 1 + inner.length) = .ok pre.length) ∧
      (∀ i, L[i]? ≠ some true → v.findCloseD i = .error .aborted ∧ v.encloseD i = .error .aborted) ∧
      v.findOpenD 0 = .error .aborted := by
  have hb := holds_builderOf L
  have hpos : 0 < L.length := List.length_pos_iff.mpr h0
  obtain ⟨v, v1, v2, v3⟩ := BP.build_spec hb.wf after hints hints0 (by rw [hb.size]; exact hL) (by rw [hb.size]; exact hpos)
  have hsz : v.rs.bv.size = L.length := by rw [v2]; exact hb.size
  have hbits : ∀ i, bitAt v.rs.bv.bits i = L.getD i false := by rw [v2]; exact hb.bits
  have hex := fun i hi => exW_excessOf hbits i hi
  have hP : v.Pos := by
    intro i hi
    rw [hex i (by omega)]
    exact hp i (by omega)
  have hlen := v3.rs.wf
  unfold wordsFor at hlen
  have hget : ∀ i, i < L.length → v.rs.bv.getD' i = .ok (L.getD i false) := by
    intro i hi
    unfold BV.getD'
    rw [check_bind (by omega), BV.get_spec _ _ (by omega), hbits]
  have hbit : ∀ i, L[i]? ≠ some true → ∀ {α : Type} (f : Unit → M α),
      (v.rs.bv.getD' i >>= fun bit => check (bit = true) >>= f) = .error .aborted := by
    intro i hi α f
    by_cases hil : i < L.length
    · rw [hget i hil, M.ok_bind]
      apply RS.check_false
      rw [List.getD_eq_getElem?_getD, List.getElem?_eq_getElem hil]
      rw [List.getElem?_eq_getElem hil] at hi
      simpa using hi
    · unfold BV.getD'
      rw [RS.check_false (show ¬ i < v.rs.bv.size by omega)]
      rfl
  have hopen : ∀ pre inner post c, L = pre ++ true :: inner ++ c :: post → Balanced inner →
      v.findOpenD (pre.length + 1 + inner.length) = .ok pre.length := by
    intro pre inner post c hl hbal
    obtain ⟨e1, _⟩ := excess_around pre inner post c hbal
    have hlen : L.length = pre.length + 1 + inner.length + 1 + post.length := by rw [hl]; simp; omega
    rw [← hl] at e1
    have e3 := e1 inner.length (Nat.le_refl _)
    rw [hbal.excess.1] at e3
    apply BP.findOpenD_spec v3 hP (by omega) (by omega)
    · rw [hex _ (by omega), hex _ (by omega)]; omega
    · intro j j1 j2
      rw [hex _ (by omega), hex _ (by omega)]
      have e4 := e1 (j - pre.length - 1) (by omega)
      have := hbal.excess.2 (j - pre.length - 1) (by omega)
      rw [show pre.length + 1 + (j - pre.length - 1) = j by omega] at e4
      omega
  refine ⟨v, ?_, ?_, ?_, ?_, ?_⟩
  · rw [BP.buildD_eq hb.wf after hints hints0 (by rw [hb.size]; exact hL)]
    · exact v1
    · intro i hi
      rw [hb.size] at hi
      rw [exW_excessOf hb.bits i hi]
      exact hp i hi
  · intro pre inner post hl hbal
    refine ⟨?_, hopen pre inner post false hl hbal⟩
    obtain ⟨e1, e2⟩ := excess_around pre inner post false hbal
    have hlen : L.length = pre.length + 1 + inner.length + 1 + post.length := by rw [hl]; simp; omega
    rw [← hl] at e1 e2
    have e2 := e2 rfl
    have := BP.findCloseD_spec v3 hP (pos := pre.length) (q := pre.length + 1 + inner.length + 1) (by omega) (by omega)
      (by
        rw [hex _ (by omega), hex _ (by omega)]
        have e3 := e1 0 (by omega)
        rw [excessOf_zero] at e3
        simpa using e3)
      (by rw [hex _ (by omega), hex _ (by omega)]; omega)
      (by
        intro j j1 j2
        rw [hex _ (by omega), hex _ (by omega)]
        have e4 := e1 (j - pre.length - 1) (by omega)
        have := hbal.excess.2 (j - pre.length - 1) (by omega)
        rw [show pre.length + 1 + (j - pre.length - 1) = j by omega] at e4
        omega)
    rw [this]
    rfl
  · intro pre inner post hl hbal
    have hlen : L.length = pre.length + 1 + inner.length + 1 + post.length := by rw [hl]; simp; omega
    unfold BP.encloseD
    rw [hget _ (by omega), M.ok_bind, check_bind]
    · exact hopen pre inner post true hl hbal
    · rw [List.getD_eq_getElem?_getD, hl, List.getElem?_append_right (by simp; omega),
        show pre.length + 1 + inner.length - (pre ++ true :: inner).length = 0 by simp; omega]
      rfl
  · intro i hi
    exact ⟨hbit i hi _, hbit i hi _⟩
  · exact RS.check_false (by omega)

/-- the hypotheses are met by `(()(`, with a pair at 1 and 2, and the parenthesis at 3 enclosed by the one at 0 -/
example : (∀ i, i ≤ [true, true, false, true].length → 0 ≤ excessOf [true, true, false, true] i) ∧
    [true, true, false, true] = [true] ++ true :: [] ++ false :: [true] ∧
    [true, true, false, true] = [] ++ true :: [true, false] ++ true :: [] ∧ Balanced [true, false] := by
  refine ⟨?_, rfl, rfl, .pair (a := []) (b := []) .nil .nil⟩
  intro i hi
  have : i ∈ List.range 5 := by simpa [Nat.lt_succ_iff] using hi
  revert i; decide

example : (BP.buildD (BV.build (builderOf [true, true, false, true]) 0) false false >>=
    fun v => .ok [v.findCloseD 1, v.findOpenD 2, v.encloseD 3, v.findCloseD 2, v.findCloseD 4, v.findOpenD 0]) =
    .ok [.ok 2, .ok 1, .ok 0, .error .aborted, .error .aborted, .error .aborted] := by decide +kernel

end AC.Props
