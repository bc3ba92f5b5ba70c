import Verif.Proofs.BpMatch
import Verif.Props.ExcessRmq
/-!
# C52: matching parentheses
-/
namespace AC.Props
open AC

/-- sequences of parentheses that match each other -/
inductive Balanced : List Bool → Prop
  | nil : Balanced []
  | pair {a b : List Bool} : Balanced a → Balanced b → Balanced (true :: a ++ false :: b)

theorem excessOf_append (A B : List Bool) (k : Nat) (hk : k ≤ B.length) :
    excessOf (A ++ B) (A.length + k) = excessOf A A.length + excessOf B k := by
  unfold excessOf
  rw [List.take_append, List.take_of_length_le (by omega), Nat.add_sub_cancel_left, List.count_append, List.count_append, List.take_length]
  omega

theorem excessOf_left (A B : List Bool) (k : Nat) (hk : k ≤ A.length) : excessOf (A ++ B) k = excessOf A k := by
  unfold excessOf
  rw [List.take_append_of_le_length hk]

theorem excessOf_open (A : List Bool) (k : Nat) : excessOf (true :: A) (k + 1) = 1 + excessOf A k := by
  unfold excessOf
  simp only [List.take_succ_cons, List.count_cons]
  simp
  omega

theorem excessOf_close (A : List Bool) (k : Nat) : excessOf (false :: A) (k + 1) = -1 + excessOf A k := by
  unfold excessOf
  simp only [List.take_succ_cons, List.count_cons]
  simp
  omega

theorem excessOf_zero (A : List Bool) : excessOf A 0 = 0 := by unfold excessOf; simp

theorem Balanced.excess {a : List Bool} (h : Balanced a) :
    excessOf a a.length = 0 ∧ ∀ k, k ≤ a.length → 0 ≤ excessOf a k := by
  induction h with
  | nil => exact ⟨rfl, fun k _ => by unfold excessOf; simp⟩
  | @pair a b _ _ iha ihb =>
    have e1 : ∀ k, k ≤ a.length → excessOf (true :: a ++ false :: b) (k + 1) = 1 + excessOf a k := by
      intro k hk
      rw [excessOf_left _ _ _ (by simp only [List.length_cons]; omega), excessOf_open]
    have e2 : ∀ k, k ≤ b.length → excessOf (true :: a ++ false :: b) (a.length + 1 + (k + 1)) = excessOf b k := by
      intro k hk
      have := excessOf_append (true :: a) (false :: b) (k + 1) (by simp only [List.length_cons]; omega)
      rw [List.length_cons, excessOf_open, iha.1, excessOf_close] at this
      rw [this]; omega
    constructor
    · rw [show (true :: a ++ false :: b).length = a.length + 1 + (b.length + 1) by simp; omega, e2 _ (Nat.le_refl _)]
      exact ihb.1
    · intro k hk
      match k with
      | 0 => rw [excessOf_zero]; omega
      | k + 1 =>
        by_cases hka : k ≤ a.length
        · rw [e1 k hka]; have := iha.2 k hka; omega
        · have hkl : k - a.length - 1 ≤ b.length := by simp at hk; omega
          have := e2 _ hkl
          rw [show a.length + 1 + (k - a.length - 1 + 1) = k + 1 by omega] at this
          rw [this]; exact ihb.2 _ hkl

/-- the excess from an opening parenthesis through a balanced sequence and one parenthesis more -/
theorem excess_around (pre inner post : List Bool) (c : Bool) (h : Balanced inner) :
    (∀ k, k ≤ inner.length → excessOf (pre ++ true :: inner ++ c :: post) (pre.length + 1 + k) =
      excessOf (pre ++ true :: inner ++ c :: post) pre.length + 1 + excessOf inner k) ∧
    (c = false → excessOf (pre ++ true :: inner ++ c :: post) (pre.length + 1 + inner.length + 1) =
      excessOf (pre ++ true :: inner ++ c :: post) pre.length) := by
  have e0 : excessOf (pre ++ true :: inner ++ c :: post) pre.length = excessOf pre pre.length := by
    rw [List.append_assoc, excessOf_left _ _ _ (Nat.le_refl _)]
  have e1 : ∀ k, k ≤ inner.length → excessOf (pre ++ true :: inner ++ c :: post) (pre.length + 1 + k) =
      excessOf (pre ++ true :: inner ++ c :: post) pre.length + 1 + excessOf inner k := by
    intro k hk
    rw [e0, List.append_assoc, Nat.add_assoc, excessOf_append _ _ _ (by simp; omega), Nat.add_comm 1 k,
      excessOf_left _ _ _ (by simp only [List.length_cons]; omega), excessOf_open]
    omega
  refine ⟨e1, ?_⟩
  intro hc
  subst hc
  have e2 := excessOf_append (pre ++ true :: inner) (false :: post) 1 (by simp)
  rw [show (pre ++ true :: inner).length + 1 = pre.length + 1 + inner.length + 1 by simp; omega, excessOf_close, excessOf_zero] at e2
  have e3 := e1 inner.length (Nat.le_refl _)
  rw [h.excess.1] at e3
  have e4 := excessOf_left (pre ++ true :: inner) (false :: post) (pre.length + 1 + inner.length) (by simp; omega)
  rw [show (pre ++ true :: inner).length = pre.length + 1 + inner.length by simp; omega] at e2
  omega

/-- C52: an opening parenthesis, a balanced sequence, a closing one, anywhere in any sequence of parentheses: `find_close` leads from the first
to the last, `find_open` back; and `enclose` of an opening parenthesis after a balanced sequence leads to the parenthesis open just before it -/
theorem C52_matching (L : List Bool) (after : W) (hints hints0 : Bool) (h0 : L ≠ []) (hL : L.length < 2 ^ 31) :
    ∃ v, BP.build (BV.build (builderOf L) after) hints hints0 = .ok v ∧
      (∀ pre inner post, L = pre ++ true :: inner ++ false :: post → Balanced inner →
        v.findClose pre.length = .ok (pre.length + 1 + inner.length) ∧
        v.findOpen (pre.length + 1 + inner.length) = .ok pre.length) ∧
      (∀ pre inner post, L = pre ++ true :: inner ++ true :: post → Balanced inner →
        v.enclose (pre.length + 1 + inner.length) = .ok pre.length) := by
  have hb := holds_builderOf L
  have hpos : 0 < L.length := List.length_pos_iff.mpr h0
  obtain ⟨v, v1, v2, v3⟩ := BP.build_spec hb.wf after hints hints0 (by rw [hb.size]; exact hL) (by rw [hb.size]; exact hpos)
  have hsz : v.rs.bv.size = L.length := by rw [v2]; exact hb.size
  have hbits : ∀ i, bitAt v.rs.bv.bits i = L.getD i false := by rw [v2]; exact hb.bits
  have hex := fun i hi => exW_excessOf hbits i hi
  have hopen : ∀ pre inner post c, L = pre ++ true :: inner ++ c :: post → Balanced inner →
      v.findOpen (pre.length + 1 + inner.length) = .ok pre.length := by
    intro pre inner post c hl hbal
    obtain ⟨e1, _⟩ := excess_around pre inner post c hbal
    have hlen : L.length = pre.length + 1 + inner.length + 1 + post.length := by rw [hl]; simp; omega
    rw [← hl] at e1
    have e3 := e1 inner.length (Nat.le_refl _)
    rw [hbal.excess.1] at e3
    apply BP.findOpen_spec v3 (by omega) (by omega)
    · rw [hex _ (by omega), hex _ (by omega)]; omega
    · intro j j1 j2
      rw [hex _ (by omega), hex _ (by omega)]
      have e4 := e1 (j - pre.length - 1) (by omega)
      have := hbal.excess.2 (j - pre.length - 1) (by omega)
      rw [show pre.length + 1 + (j - pre.length - 1) = j by omega] at e4
      omega
  refine ⟨v, v1, ?_, ?_⟩
  · intro pre inner post hl hbal
    refine ⟨?_, hopen pre inner post false hl hbal⟩
    obtain ⟨e1, e2⟩ := excess_around pre inner post false hbal
    have hlen : L.length = pre.length + 1 + inner.length + 1 + post.length := by rw [hl]; simp; omega
    rw [← hl] at e1 e2
    have e2 := e2 rfl
    have := BP.findClose_spec v3 (pos := pre.length) (q := pre.length + 1 + inner.length + 1) (by omega) (by omega)
      (by
        rw [hex _ (by omega), hex _ (by omega)]
        have e3 := e1 0 (by omega)
        rw [excessOf_zero] at e3
        simpa using e3)
      (by rw [hex _ (by omega), hex _ (by omega)]; omega)
      (by
        intro j j1 j2
        rw [hex _ (by omega), hex _ (by omega)]
        have e4 := e1 (j - pre.length - 1) (by omega)
        have := hbal.excess.2 (j - pre.length - 1) (by omega)
        rw [show pre.length + 1 + (j - pre.length - 1) = j by omega] at e4
        omega)
    rw [this]
    rfl
  · intro pre inner post hl hbal
    exact hopen pre inner post true hl hbal

/-- `)(())(` holds the pair from 1 to 4 around the pair from 2 to 3, though not itself balanced -/
example : [false, true, true, false, false, true] = [false] ++ true :: [true, false] ++ false :: [true] ∧ Balanced [true, false] :=
  ⟨rfl, .pair (a := []) (b := []) .nil .nil⟩

example : (BP.build (BV.build (builderOf [false, true, true, false, false, true]) 0) false false >>=
    fun v => do let x ← v.findClose 1; let y ← v.findOpen 4; let z ← v.enclose 2; .ok (x, y, z)) = .ok (4, 1, 1) := by decide +kernel

theorem Balanced.append {a b : List Bool} (ha : Balanced a) (hb : Balanced b) : Balanced (a ++ b) := by
  induction ha with
  | nil => exact hb
  | @pair a c h1 _ _ ih2 =>
    rw [show true :: a ++ false :: c ++ b = true :: a ++ false :: (c ++ b) by simp]
    exact .pair h1 ih2

/-- where a parenthesis of a balanced sequence finds its match -/
theorem Balanced.around {L : List Bool} (h : Balanced L) : ∀ i (hi : i < L.length), ∃ pre inner post,
    L = pre ++ true :: inner ++ false :: post ∧ Balanced inner ∧
    ((L[i] = true ∧ i = pre.length) ∨ (L[i] = false ∧ i = pre.length + 1 + inner.length)) := by
  induction h with
  | nil => intro i hi; simp at hi
  | @pair a b ha _ iha ihb =>
    intro i hi
    by_cases h0 : i = 0
    · subst h0
      exact ⟨[], a, b, by simp, ha, .inl ⟨rfl, rfl⟩⟩
    by_cases h1 : i < a.length + 1
    · obtain ⟨pre, inner, post, p1, p2, p3⟩ := iha (i - 1) (by omega)
      refine ⟨true :: pre, inner, post ++ false :: b, by rw [p1]; simp, p2, ?_⟩
      have : (true :: a ++ false :: b)[i] = a[i - 1]'(by omega) := by
        rw [List.getElem_append_left (by simp; omega), List.getElem_cons, dif_neg h0]
      rw [this]
      rcases p3 with ⟨q1, q2⟩ | ⟨q1, q2⟩
      · exact .inl ⟨q1, by simp only [List.length_cons]; omega⟩
      · exact .inr ⟨q1, by simp only [List.length_cons]; omega⟩
    by_cases h2 : i = a.length + 1
    · subst h2
      refine ⟨[], a, b, by simp, ha, .inr ⟨?_, by simp; omega⟩⟩
      rw [List.getElem_append_right (by simp)]
      simp
    · have hib : i - (a.length + 2) < b.length := by simp at hi; omega
      obtain ⟨pre, inner, post, p1, p2, p3⟩ := ihb (i - (a.length + 2)) hib
      refine ⟨true :: a ++ false :: pre, inner, post, by rw [p1]; simp, p2, ?_⟩
      have : (true :: a ++ false :: b)[i] = b[i - (a.length + 2)]'hib := by
        rw [List.getElem_append_right (by simp; omega), List.getElem_cons, dif_neg (by simp; omega)]
        congr 1
      rw [this]
      rcases p3 with ⟨q1, q2⟩ | ⟨q1, q2⟩
      · exact .inl ⟨q1, by simp; omega⟩
      · exact .inr ⟨q1, by simp; omega⟩

/-- C52: in a balanced sequence `find_close` and `find_open` are inverse to each other on all parentheses, and what stands between is balanced -/
theorem C52_inverse (L : List Bool) (after : W) (hints hints0 : Bool) (hbal : Balanced L) (h0 : L ≠ []) (hL : L.length < 2 ^ 31) :
    ∃ v, BP.build (BV.build (builderOf L) after) hints hints0 = .ok v ∧
      (∀ i, L[i]? = some true → ∃ j, v.findClose i = .ok j ∧ i < j ∧ L[j]? = some false ∧ v.findOpen j = .ok i ∧
        Balanced ((L.take j).drop (i + 1))) ∧
      (∀ j, L[j]? = some false → ∃ i, v.findOpen j = .ok i ∧ i < j ∧ L[i]? = some true ∧ v.findClose i = .ok j) := by
  obtain ⟨v, v1, v2, _⟩ := C52_matching L after hints hints0 h0 hL
  have hat : ∀ pre inner post, L = pre ++ true :: inner ++ false :: post →
      L[pre.length]? = some true ∧ L[pre.length + 1 + inner.length]? = some false ∧
      (L.take (pre.length + 1 + inner.length)).drop (pre.length + 1) = inner := by
    intro pre inner post hl
    subst hl
    refine ⟨by simp, ?_, ?_⟩
    · rw [List.getElem?_append_right (by simp; omega)]
      simp
      rw [show pre.length + 1 + inner.length - (pre.length + (inner.length + 1)) = 0 by omega]
      rfl
    · rw [List.take_append_of_le_length (by simp; omega), List.take_of_length_le (by simp; omega),
        List.drop_append, List.drop_of_length_le (by omega)]
      simp
  refine ⟨v, v1, ?_, ?_⟩
  · intro i hi
    obtain ⟨hil, hit⟩ := List.getElem?_eq_some_iff.mp hi
    obtain ⟨pre, inner, post, p1, p2, p3⟩ := hbal.around i hil
    rcases p3 with ⟨q1, q2⟩ | ⟨q1, q2⟩
    · obtain ⟨c1, c2⟩ := v2 pre inner post p1 p2
      obtain ⟨a1, a2, a3⟩ := hat pre inner post p1
      subst q2
      exact ⟨_, c1, by omega, a2, c2, by rw [a3]; exact p2⟩
    · rw [hit] at q1; cases q1
  · intro j hj
    obtain ⟨hil, hit⟩ := List.getElem?_eq_some_iff.mp hj
    obtain ⟨pre, inner, post, p1, p2, p3⟩ := hbal.around j hil
    rcases p3 with ⟨q1, q2⟩ | ⟨q1, q2⟩
    · rw [hit] at q1; cases q1
    · obtain ⟨c1, c2⟩ := v2 pre inner post p1 p2
      obtain ⟨a1, a2, a3⟩ := hat pre inner post p1
      subst q2
      exact ⟨_, c2, by omega, a1, c1⟩

/-- `(()())()` is balanced -/
example : Balanced [true, true, false, true, false, false, true, false] ∧ [true, true, false, true, false, false, true, false].length < 2 ^ 31 :=
  ⟨.pair (a := [true, false, true, false]) (b := [true, false])
    (.pair (a := []) (b := [true, false]) .nil (.pair (a := []) (b := []) .nil .nil)) (.pair (a := []) (b := []) .nil .nil), by decide⟩

end AC.Props
