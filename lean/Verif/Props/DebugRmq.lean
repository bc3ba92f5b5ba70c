import Verif.Proofs.DebugRmqTree
import Verif.Props.ExcessRmq
import Verif.Props.Rmq
/-!
# C88: rank, select and range-minimum queries in a build with assertions
-/
namespace AC.Props
open AC

/-- **C88**, rank and select: in a build with assertions, for any bits, the answers of C38 within the domain, and a stop at an
assertion for every argument outside of it -/
theorem C88_rank_select (L : List Bool) (after : W) (hints hints0 : Bool) (hL : L.length < 2 ^ 63) :
    ∃ r, RS.build (BV.build (builderOf L) after) hints hints0 = .ok r ∧
      (∀ i, i ≤ L.length → r.rankD i = .ok ((L.take i).count true) ∧ r.rank0D i = .ok ((L.take i).count false)) ∧
      (∀ i, L.length < i → r.rankD i = .error .aborted ∧ r.rank0D i = .error .aborted) ∧
      (∀ k, k < L.count true → ∃ p, r.selectD k = .ok p ∧ L[p]? = some true ∧ (L.take p).count true = k) ∧
      (∀ k, L.count true ≤ k → r.selectD k = .error .aborted) ∧
      (∀ k, k < L.count false → ∃ p, r.select0D k = .ok p ∧ L[p]? = some false ∧ (L.take p).count false = k) ∧
      (∀ k, L.count false ≤ k → r.select0D k = .error .aborted) := by
  have hb := holds_builderOf L
  obtain ⟨r, e1, e2, e3⟩ := RS.build_spec hb.wf after hints hints0 (by rw [hb.size]; exact hL)
  obtain ⟨r', f1, _, _, f4, f5, f6⟩ := C38_rank_select L after hints hints0 hL
  rw [e1] at f1
  injection f1 with f1
  subst f1
  have hsz : r.bv.size = L.length := by rw [e2]; exact hb.size
  have hbits : ∀ i, bitAt r.bv.bits i = L.getD i false := by rw [e2]; exact hb.bits
  have hone : cnt (bitAt r.bv.bits) r.bv.size = L.count true := by
    rw [hsz, count_true hbits _ (Nat.le_refl _), List.take_length]
  have hzero : cnt (fun i => !bitAt r.bv.bits i) r.bv.size = L.count false := by
    rw [hsz, count_false hbits _ (Nat.le_refl _), List.take_length]
  refine ⟨r, e1, ?_, ?_, ?_, ?_, ?_, ?_⟩
  · intro i hi
    obtain ⟨g1, g2⟩ := f4 i hi
    refine ⟨by rw [RS.rankD_eq (by omega)]; exact g1, ?_⟩
    unfold RS.rank0D
    unfold RS.rank0 at g2
    rw [RS.rankD_eq (by omega)]; exact g2
  · intro i hi
    have h := RS.rankD_guard (r := r) (pos := i) (by omega)
    refine ⟨h, ?_⟩
    unfold RS.rank0D
    rw [h]; rfl
  · intro k hk
    rw [RS.selectD_eq e3 (by rw [hone]; exact hk)]; exact f5 k hk
  · intro k hk
    exact RS.selectD_guard e3 (by rw [hone]; exact hk)
  · intro k hk
    rw [RS.select0D_eq e3 (by rw [hzero]; exact hk)]; exact f6 k hk
  · intro k hk
    exact RS.select0D_guard e3 (by rw [hzero]; exact hk)

/-- the hypothesis is met; the third one is at position 4, and there is no sixth -/
example : [true, false, true, false, true, true, false, false, true, false].length < 2 ^ 63 := by decide

example : (RS.build (BV.build (builderOf [true, false, true, false, true, true, false, false, true, false]) 0) true true >>=
    fun r => .ok (r.selectD 2, r.selectD 5, r.rankD 10, r.rankD 11)) = .ok (.ok 4, .error .aborted, .ok 5, .error .aborted) := by
  decide +kernel

/-- **C88**, the least excess: in a build with assertions, a sequence of parentheses in which no prefix has more closing than
opening ones is accepted, with the same structure as without assertions and the answers of C39; arguments out of order or
beyond the end stop at an assertion -/
theorem C88_excess_rmq (L : List Bool) (after : W) (hints hints0 : Bool) (h0 : L ≠ []) (hL : L.length < 2 ^ 31)
    (hp : ∀ i, i ≤ L.length → 0 ≤ excessOf L i) :
    ∃ v, BP.buildD (BV.build (builderOf L) after) hints hints0 = .ok v ∧
      BP.build (BV.build (builderOf L) after) hints hints0 = .ok v ∧
      (∀ a b, a ≤ b → b ≤ L.length → ∃ p m, v.excessRmqD a b = .ok (p, m) ∧
        a ≤ p ∧ p ≤ b ∧ m = excessOf L p ∧
        (∀ q, a ≤ q → q ≤ b → m ≤ excessOf L q) ∧ (∀ q, a ≤ q → q < p → m < excessOf L q)) ∧
      ∀ a b, b < a ∨ L.length < a → v.excessRmqD a b = .error .aborted := by
  have hb := holds_builderOf L
  have hpos : 0 < L.length := List.length_pos_iff.mpr h0
  obtain ⟨v, v1, v2, v3⟩ := BP.build_spec hb.wf after hints hints0 (by rw [hb.size]; exact hL) (by rw [hb.size]; exact hpos)
  obtain ⟨v', w1, w2⟩ := C39_excess_rmq L after hints hints0 h0 hL
  rw [v1] at w1
  injection w1 with w1
  subst w1
  have hsz : v.rs.bv.size = L.length := by rw [v2]; exact hb.size
  have hbits : ∀ i, bitAt v.rs.bv.bits i = L.getD i false := by rw [v2]; exact hb.bits
  have hP : v.Pos := by
    intro i hi
    rw [exW_excessOf hbits i (by omega)]
    exact hp i (by omega)
  refine ⟨v, ?_, v1, ?_, ?_⟩
  · rw [BP.buildD_eq hb.wf after hints hints0 (by rw [hb.size]; exact hL)]
    · exact v1
    · intro i hi
      rw [hb.size] at hi
      rw [exW_excessOf hb.bits i hi]
      exact hp i hi
  · intro a b hab hbl
    rw [BP.excessRmqD_eq v3 hP hab (by omega)]
    exact w2 a b hab hbl
  · intro a b h
    unfold BP.excessRmqD
    by_cases hab : a ≤ b
    · rw [check_bind hab]
      unfold BP.excessD
      rw [RS.rankD_guard (by omega)]; rfl
    · exact RS.check_false hab

/-- the hypotheses are met by `(()())` and by `((`, which is not balanced -/
example : (∀ i, i ≤ [true, true, false, true, false, false].length → 0 ≤ excessOf [true, true, false, true, false, false] i) ∧
    (∀ i, i ≤ [true, true].length → 0 ≤ excessOf [true, true] i) := by
  constructor
  · intro i hi
    have : i ∈ List.range 7 := by simpa [Nat.lt_succ_iff] using hi
    revert i; decide
  · intro i hi
    have : i ∈ List.range 3 := by simpa [Nat.lt_succ_iff] using hi
    revert i; decide

/-- and the other way around: a sequence with a prefix that has more closing than opening parentheses is accepted by a build
without assertions (C39 holds for it) and stops one with assertions, wherever the prefix ends -/
theorem C88_excess_guard (L : List Bool) (after : W) (hints hints0 : Bool) (hL : L.length < 2 ^ 31)
    (i : Nat) (hi : i ≤ L.length) (hn : excessOf L i < 0) :
    BP.buildD (BV.build (builderOf L) after) hints hints0 = .error .aborted ∧
    ∃ v, BP.build (BV.build (builderOf L) after) hints hints0 = .ok v := by
  have hb := holds_builderOf L
  have h0 : L ≠ [] := by
    intro hc
    subst hc
    simp [excessOf] at hn
  obtain ⟨v, w1, _⟩ := C39_excess_rmq L after hints hints0 h0 hL
  refine ⟨BP.buildD_abort hb.wf after hints hints0 (by rw [hb.size]; exact hL) (i := i) (by rw [hb.size]; exact hi) ?_, v, w1⟩
  rw [exW_excessOf hb.bits i hi]; exact hn

/-- the hypotheses are met by `())(` -/
example : excessOf [true, false, false, true] 3 < 0 := by decide

/-- **C88**, `reverse` of a bit vector under construction: the assertion holds exactly when no bit beyond the size is set in the
last word, and then the bits are those of a build without assertions. -/
theorem C88_reverse {v : BVB} (hl : v.bits.length = wordsFor v.size) :
    ((∀ i, v.size ≤ i → bitAt v.bits i = false) → v.reverseD = .ok v.reverse) ∧
    ∀ i, v.size ≤ i → bitAt v.bits i = true → v.reverseD = .error .aborted := by
  refine ⟨fun h => BVB.reverseD_eq ⟨hl, h⟩, fun i hi hb => ?_⟩
  unfold BVB.reverseD
  rw [show AC.check _ = .error .aborted from if_neg (fun hc => by rw [(BVB.reverseRem_iff hl).mp hc i hi] at hb; cases hb)]
  rfl

/-- both cases occur -/
example : (BVB.reverseD ⟨[5], 3⟩, BVB.reverseD ⟨[5], 2⟩) = (.ok (BVB.reverse ⟨[5], 3⟩), .error .aborted) := by decide +kernel

/-- **C88**, range-minimum queries: in a build with assertions, every list of values is accepted, with the same structure as
without, and every query within the list stops at no assertion and has the answer of C15; a query out of order, or from `a` to
a `b` beyond the list, stops -/
theorem C88_rmq (v : List Nat) (after : W) (hv : v.length < 2 ^ 30 - 1) :
    ∃ t, CT.buildD v after = .ok t ∧ CT.build v after = .ok t ∧
      (∀ a b, a ≤ b → (hb : b < v.length) → ∃ m, ∃ _ : a ≤ m, ∃ _ : m ≤ b, CT.rmqD t a b = .ok m ∧
        (∀ k (_ : k ≤ b), a ≤ k → v[m] ≤ v[k]) ∧ (∀ k (_ : k < m), a ≤ k → v[m] < v[k])) ∧
      (∀ a b, b < a → CT.rmqD t a b = .error .aborted) ∧
      ∀ a b, a < b → v.length ≤ b → b < 2 ^ 64 → CT.rmqD t a b = .error .aborted := by
  obtain ⟨t, t1, t2⟩ := CT.build_spec v after hv
  obtain ⟨t', f1, _, f3⟩ := C15_rmq v after hv
  rw [t1] at f1
  injection f1 with f1
  subst f1
  refine ⟨t, by rw [CT.buildD_eq v after hv]; exact t1, t1, ?_, ?_, ?_⟩
  · intro a b hab hb
    rw [CT.rmqD_eq t2 hab hb]
    exact f3 a b hab hb
  · intro a b hab
    exact RS.check_false (by omega)
  · intro a b hab hb h64
    exact CT.rmqD_beyond t2 hab hb h64

/-- the hypothesis is met by values with a repeated minimum -/
example : [5, 3, 4, 1, 6, 1, 2].length < 2 ^ 30 - 1 := by decide

example : (CT.buildD [5, 3, 4, 1, 6, 1, 2] 0 >>= fun t => .ok (CT.rmqD t 0 6, CT.rmqD t 4 6, CT.rmqD t 4 7, CT.rmqD t 3 2)) =
    .ok (.ok 3, .ok 5, .error .aborted, .error .aborted) := by decide +kernel

/-- one query outside of the list passes all assertions: a range of one position, whatever the position, is its own answer -/
theorem C88_rmq_unchecked (v : List Nat) (after : W) (hv : v.length < 2 ^ 30 - 1) :
    ∃ t, CT.buildD v after = .ok t ∧ ∀ a, CT.rmqD t a a = .ok a := by
  obtain ⟨t, t1, t2⟩ := CT.build_spec v after hv
  refine ⟨t, by rw [CT.buildD_eq v after hv]; exact t1, ?_⟩
  intro a
  unfold CT.rmqD
  rw [check_bind (Nat.le_refl a), if_pos rfl]

/-- for the empty list too -/
example : ([] : List Nat).length < 2 ^ 30 - 1 := by decide

end AC.Props
