import Verif.Model.UncompressedList
import Verif.Proofs.BlkStore
/-!
# Lists of integers stored as they are
-/
namespace AC.ULI

/-- the iterator reads the list `xs` -/
structure Rep (v : BV) (it : ULI) (xs : List Nat) : Prop where
  size : it.size = xs.length
  read : ∀ i (h : i < xs.length), it.data v i = .ok xs[i]

theorem Rep.at {v : BV} {it : ULI} {xs : List Nat} (h : Rep v it xs) (p : Nat) : Rep v { it with pos := p } xs :=
  ⟨h.size, fun i hi => h.read i hi⟩

/-- `q` is the first position from `p` on whose element is at least `x` -/
structure Lands (xs : List Nat) (p x q : Nat) : Prop where
  from' : p ≤ q
  le : q ≤ xs.length
  before : ∀ j (h : j < xs.length), p ≤ j → j < q → xs[j] < x
  here : ∀ h : q < xs.length, x ≤ xs[q]

theorem scanLoop_spec {v : BV} {it : ULI} {xs : List Nat} (h : Rep v it xs) (x : Nat) :
    ∀ (n i : Nat), i + n ≤ xs.length → (i + n < xs.length → ∃ j, ∃ h : j < xs.length, i ≤ j ∧ j < i + n ∧ x ≤ xs[j]) →
      ∃ q, Lands xs i x q ∧ it.scanLoop v x n i = .ok (xs[q]?.getD it.last, { it with pos := q }) := by
  intro n
  induction n with
  | zero =>
      intro i hi hx
      refine ⟨i, ⟨Nat.le_refl _, by omega, fun j _ a b => by omega, ?_⟩, ?_⟩
      · intro hlt
        obtain ⟨j, _, a, b, _⟩ := hx (by omega)
        omega
      · have : ¬ i < xs.length := by
          intro hlt
          obtain ⟨j, _, a, b, _⟩ := hx (by omega)
          omega
        rw [List.getElem?_eq_none (by omega)]; rfl
  | succ n ih =>
      intro i hi hx
      have hlt : i < xs.length := by omega
      unfold scanLoop
      rw [h.read i hlt, M.ok_bind]
      by_cases hge : xs[i] ≥ x
      · rw [if_pos hge]
        exact ⟨i, ⟨Nat.le_refl _, by omega, fun j _ a b => by omega, fun _ => hge⟩, by rw [List.getElem?_eq_getElem hlt]; rfl⟩
      · rw [if_neg hge]
        obtain ⟨q, q1, q2⟩ := ih (i + 1) (by omega) (by
          intro hh
          obtain ⟨j, hj, a, b, c⟩ := hx (by omega)
          refine ⟨j, hj, ?_, by omega, c⟩
          rcases Nat.lt_or_ge i j with h1 | h1
          · omega
          · have e : j = i := by omega
            subst e; omega)
        refine ⟨q, ⟨by have := q1.from'; omega, q1.le, ?_, q1.here⟩, q2⟩
        intro j hj a b
        rcases Nat.lt_or_ge i j with h1 | h1
        · exact q1.before j hj (by omega) b
        · have e : j = i := by omega
          subst e; omega

theorem nextGeqByScan_spec {v : BV} {it : ULI} {xs : List Nat} (h : Rep v it xs) (hne : xs ≠ []) (hp : it.pos ≤ xs.length) (x : Nat) :
    ∃ q, Lands xs it.pos x q ∧ it.nextGeqByScan v x = .ok (xs[q]?.getD it.last, { it with pos := q }) := by
  have hl : 0 < xs.length := List.length_pos_iff.mpr hne
  have hhi : it.hi = xs.length - 1 := by
    unfold hi; rw [h.size, if_neg (by omega)]
  unfold nextGeqByScan
  by_cases hle : it.pos ≤ it.hi
  · rw [if_pos hle]
    exact scanLoop_spec h x _ _ (by omega) (fun hh => by omega)
  · rw [if_neg hle]
    refine ⟨xs.length, ⟨by omega, Nat.le_refl _, fun j _ _ _ => by omega, fun hh => by omega⟩, ?_⟩
    rw [List.getElem?_eq_none (by omega), show it.hi + 1 = xs.length by omega]; rfl

theorem geqLoop_spec {v : BV} {xs : List Nat} (hs : xs.Pairwise (· < ·)) (x : Nat) :
    ∀ (fuel lo hi : Nat) (it : ULI), Rep v it xs → hi < xs.length → lo ≤ hi →
      (hi + 1 < xs.length → ∃ h : hi < xs.length, x ≤ xs[hi]) → hi < lo + fuel →
      ∃ q, Lands xs lo x q ∧ geqLoop v x fuel lo hi it = .ok (xs[q]?.getD it.last, { it with pos := q }) := by
  have mono : ∀ i j (hi : i < xs.length) (hj : j < xs.length), i < j → xs[i] < xs[j] :=
    fun i j hi hj hij => List.pairwise_iff_getElem.mp hs i j hi hj hij
  intro fuel
  induction fuel with
  | zero => intro lo hi it _ _ _ _ hf; omega
  | succ fuel ih =>
      intro lo hi it h hh hle hx hf
      unfold geqLoop
      rw [if_pos hle]
      by_cases hsm : hi - lo ≤ 8
      · rw [if_pos hsm]
        refine scanLoop_spec h x _ _ (by omega) ?_
        intro h1
        obtain ⟨h2, h3⟩ := hx (by omega)
        exact ⟨hi, h2, hle, by omega, h3⟩
      · rw [if_neg hsm]
        have hpos : (lo + hi) / 2 < xs.length := by omega
        have hp1 : lo + 4 ≤ (lo + hi) / 2 ∧ (lo + hi) / 2 < hi := by omega
        generalize hp : (lo + hi) / 2 = pos at hpos hp1
        simp only [(h.at pos).read pos hpos, M.ok_bind]
        by_cases hgt : xs[pos] > x
        · rw [if_pos hgt, if_pos (by omega), (h.at pos).read (pos - 1) (by omega)]
          simp only [M.ok_bind]
          by_cases hlt : x > xs[pos - 1]
          · rw [if_pos hlt]
            refine ⟨pos, ⟨by omega, by omega, ?_, fun _ => by omega⟩, by rw [List.getElem?_eq_getElem hpos]; rfl⟩
            intro j hj a b
            rcases Nat.lt_or_ge j (pos - 1) with h3 | h3
            · have := mono j (pos - 1) hj (by omega) h3; omega
            · have e : j = pos - 1 := by omega
              subst e; exact hlt
          · rw [if_neg hlt]
            exact ih lo (pos - 1) _ (h.at pos) (by omega) (by omega) (fun _ => ⟨by omega, by omega⟩) (by omega)
        · rw [if_neg hgt]
          by_cases hlt : xs[pos] < x
          · rw [if_pos hlt]
            obtain ⟨q, q1, q2⟩ := ih (pos + 1) hi _ (h.at pos) hh (by omega) hx (by omega)
            refine ⟨q, ⟨by have := q1.from'; omega, q1.le, ?_, q1.here⟩, q2⟩
            intro j hj a b
            rcases Nat.lt_or_ge pos j with h3 | h3
            · exact q1.before j hj (by omega) b
            · rcases Nat.lt_or_ge j pos with h4 | h4
              · have := mono j pos hj hpos h4; omega
              · have e : j = pos := by omega
                subst e; exact hlt
          · rw [if_neg hlt]
            refine ⟨pos, ⟨by omega, by omega, ?_, fun _ => by omega⟩, by rw [List.getElem?_eq_getElem hpos]; rfl⟩
            intro j hj a b
            have := mono j pos hj hpos b; omega

theorem nextGeq_spec {v : BV} {it : ULI} {xs : List Nat} (h : Rep v it xs) (hs : xs.Pairwise (· < ·)) (hne : xs ≠ [])
    (hp : it.pos ≤ xs.length) (x : Nat) :
    ∃ q, Lands xs it.pos x q ∧ it.nextGeq v x = .ok (xs[q]?.getD it.last, { it with pos := q }) := by
  have hl : 0 < xs.length := List.length_pos_iff.mpr hne
  have hhi : it.hi = xs.length - 1 := by
    unfold hi; rw [h.size, if_neg (by omega)]
  unfold nextGeq
  by_cases hle : it.pos ≤ it.hi
  · exact geqLoop_spec hs x _ _ _ it h (by omega) hle (fun hh => by omega) (by rw [h.size]; omega)
  · refine ⟨xs.length, ⟨by omega, Nat.le_refl _, fun j _ _ _ => by omega, fun hh => by omega⟩, ?_⟩
    unfold geqLoop
    rw [if_neg hle, List.getElem?_eq_none (by omega), show xs.length = it.pos by omega]; rfl

theorem next_spec {v : BV} {it : ULI} {xs : List Nat} (h : Rep v it xs) (hp : it.pos < xs.length) :
    it.next v = .ok (xs[it.pos + 1]?.getD it.last, { it with pos := it.pos + 1 }) := by
  unfold next
  by_cases he : it.pos + 1 ≠ it.size
  · rw [if_pos he]
    have := h.size
    rw [h.read (it.pos + 1) (by omega), M.ok_bind, List.getElem?_eq_getElem (by omega)]; rfl
  · rw [if_neg he, List.getElem?_eq_none (by have := h.size; omega)]; rfl

theorem access_spec {v : BV} {it : ULI} {xs : List Nat} (h : Rep v it xs) {i : Nat} (hi : i < xs.length) :
    it.access v i = .ok (xs[i], { it with pos := i }) := by
  unfold access
  rw [h.read i hi, M.ok_bind]

theorem meetsLoop_spec {v : BV} {it : ULI} {xs : List Nat} (h : Rep v it xs) (hs : xs.Pairwise (· < ·)) (r : Range) :
    ∀ (n i : Nat), i + n = xs.length →
      ∃ b, it.meetsLoop v r n i = .ok b ∧ (b = true ↔ ∃ j, ∃ h : j < xs.length, i ≤ j ∧ r.b ≤ xs[j] ∧ xs[j] ≤ r.e) := by
  intro n
  induction n with
  | zero =>
      intro i hi
      refine ⟨false, rfl, ?_⟩
      constructor
      · intro hh; cases hh
      · rintro ⟨j, hj, a, _⟩; omega
  | succ n ih =>
      intro i hi
      have hlt : i < xs.length := by omega
      unfold meetsLoop
      rw [h.read i hlt, M.ok_bind]
      by_cases h1 : xs[i] > r.e
      · rw [if_pos h1]
        refine ⟨false, rfl, ?_⟩
        constructor
        · intro hh; cases hh
        · rintro ⟨j, hj, a, _, c⟩
          exfalso
          rcases Nat.lt_or_ge i j with h3 | h3
          · have := List.pairwise_iff_getElem.mp hs i j hlt hj h3; omega
          · have e : j = i := by omega
            subst e; omega
      · rw [if_neg h1]
        by_cases h2 : xs[i] ≥ r.b ∧ xs[i] ≤ r.e
        · rw [if_pos h2]
          exact ⟨true, rfl, fun _ => ⟨i, hlt, Nat.le_refl _, h2.1, h2.2⟩, fun _ => rfl⟩
        · rw [if_neg h2]
          obtain ⟨b, b1, b2⟩ := ih (i + 1) (by omega)
          refine ⟨b, b1, b2.trans ?_⟩
          constructor
          · rintro ⟨j, hj, a, c⟩; exact ⟨j, hj, by omega, c⟩
          · rintro ⟨j, hj, a, c⟩
            refine ⟨j, hj, ?_, c⟩
            rcases Nat.lt_or_ge i j with h3 | h3
            · exact h3
            · have e : j = i := by omega
              subst e; exact absurd ⟨c.1, c.2⟩ h2

/-! ## building -/

theorem build_spec (w : Nat) (hw : w ≤ 64) : ∀ (xs : List Nat) (b : BVB), b.WF → (∀ x ∈ xs, x < 2 ^ w) →
    (build w b xs).WF ∧ (build w b xs).size = b.size + xs.length * w ∧
    (∀ i, i < b.size → bitAt (build w b xs).bits i = bitAt b.bits i) ∧
    ∀ i (h : i < xs.length), valueAt (build w b xs).bits (b.size + i * w) w = xs[i] := by
  intro xs
  induction xs with
  | nil => intro b hb _; exact ⟨hb, by simp [build], fun _ _ => rfl, fun i h => absurd h (by simp)⟩
  | cons x xs ih =>
      intro b hb hx
      obtain ⟨a1, a2, a3, a4⟩ := appendBits_value b (x := x) (len := w) hb hw (hx x (by simp))
      obtain ⟨c1, c2, c3, c4⟩ := ih _ a1 (fun y hy => hx y (by simp [hy]))
      show (build w _ xs).WF ∧ (build w _ xs).size = _ ∧ _
      refine ⟨c1, ?_, ?_, ?_⟩
      · rw [c2, a2, List.length_cons, Nat.succ_mul]; omega
      · intro i hi
        exact (c3 i (by omega)).trans (a3 i hi)
      · intro i hi
        cases i with
        | zero =>
            rw [Nat.zero_mul, Nat.add_zero]
            exact (valueAt_congr _ _ _ _ (fun j hj => c3 _ (by omega))).trans a4
        | succ i =>
            have := c4 i (by simpa using hi)
            rw [a2] at this
            rw [Nat.succ_mul, show b.size + (i * w + w) = b.size + w + i * w by omega]
            exact this

theorem rep_of_build {w : Nat} (hw : w ≤ 64) (xs : List Nat) (b : BVB) (hb : b.WF) (h8 : b.size % 8 = 0)
    (hx : ∀ x ∈ xs, x < 2 ^ w) (u : Nat) (more : BVB) (hm : more.WF) (hs : (build w b xs).size ≤ more.size)
    (hsame : ∀ i, i < (build w b xs).size → bitAt more.bits i = bitAt (build w b xs).bits i) (after : W) :
    Rep (BV.build more after) (mk' w b.size u xs.length) xs := by
  obtain ⟨c1, c2, c3, c4⟩ := build_spec w hw xs b hb hx
  refine ⟨rfl, ?_⟩
  intro i hi
  have hiw : i * w + w ≤ xs.length * w := by
    have := Nat.mul_le_mul_right w (show i + 1 ≤ xs.length from hi)
    rw [Nat.succ_mul] at this; exact this
  have hlen := hm.len
  unfold wordsFor at hlen
  have e8 : b.size / 8 * 8 = b.size := by omega
  obtain ⟨x, x1, x2⟩ := BV.getBits_spec (BV.build more after) (b.size + i * w) w hw (by
    show b.size + i * w + w ≤ 64 * more.bits.length
    omega)
  unfold data
  simp only [mk', e8]
  rw [x1, M.ok_bind, x2]
  have : valueAt more.bits (b.size + i * w) w = xs[i] := by
    rw [valueAt_congr more.bits (build w b xs).bits _ _ (fun j hj => hsame _ (by omega))]
    exact c4 i hi
  show Except.ok (valueAt more.bits (b.size + i * w) w) = _
  rw [this]

end AC.ULI
