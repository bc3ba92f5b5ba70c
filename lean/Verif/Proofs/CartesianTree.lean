import Verif.Model.CartesianTree
import Verif.Proofs.BpRmq
import Verif.Props.ExcessRmq
/-!
# Range-minimum queries by the least excess
-/
namespace AC

theorem snoc_induction {α : Type} {P : List α → Prop} (h0 : P []) (h1 : ∀ v x, P v → P (v ++ [x])) (v : List α) : P v := by
  have : ∀ w : List α, P w.reverse := by
    intro w
    induction w with
    | nil => exact h0
    | cons x w ih => rw [List.reverse_cons]; exact h1 _ _ ih
  have h := this v.reverse
  rw [List.reverse_reverse] at h
  exact h

namespace CT
open AC.Props

/-- the stack after a list of values, from its top -/
def stk (v : List Nat) : List Nat := v.foldl (fun st x => x :: st.filter (· ≤ x)) []

theorem stk_concat (v : List Nat) (x : Nat) : stk (v ++ [x]) = x :: (stk v).filter (· ≤ x) := by
  unfold stk; rw [List.foldl_append]; rfl

/-- the stack is sorted, so popping is filtering -/
theorem stk_sorted (v : List Nat) : (stk v).Pairwise (· ≥ ·) := by
  induction v using snoc_induction with
  | h0 => exact List.Pairwise.nil
  | h1 v x ih =>
      rw [stk_concat, List.pairwise_cons]
      refine ⟨?_, ih.filter _⟩
      intro y hy
      rw [List.mem_filter] at hy
      simpa using hy.2

theorem popLoop_spec (x : Nat) : ∀ (st : List Nat) (bp : BVB) (B : List Bool), st.Pairwise (· ≥ ·) → Holds bp B →
    (popLoop x st bp).stack = st.filter (· ≤ x) ∧
    ∃ c, Holds (popLoop x st bp).bp (B ++ List.replicate c true) ∧ c + (st.filter (· ≤ x)).length = st.length := by
  intro st
  induction st with
  | nil => intro bp B _ h; exact ⟨rfl, 0, by simpa [popLoop] using h, rfl⟩
  | cons y st ih =>
      intro bp B hs h
      rw [List.pairwise_cons] at hs
      unfold popLoop
      by_cases hy : x < y
      · rw [if_pos hy]
        obtain ⟨e1, c, e2, e3⟩ := ih (bp.pushBack true) (B ++ [true]) hs.2 (holds_push bp B true h)
        rw [List.filter_cons_of_neg (by simp; omega)]
        refine ⟨e1, c + 1, ?_, by rw [List.length_cons]; omega⟩
        rw [List.replicate_succ, ← List.singleton_append, ← List.append_assoc]
        exact e2
      · rw [if_neg hy]
        have : (y :: st).filter (· ≤ x) = y :: st := by
          rw [List.filter_eq_self]
          intro z hz
          rw [List.mem_cons] at hz
          rcases hz with rfl | hz
          · simp; omega
          · have := hs.1 z hz; simp; omega
        rw [this]
        exact ⟨rfl, 0, by simpa using h, by omega⟩

/-- the builder after the values `v` -/
structure Inv (v : List Nat) (b : Builder) (B : List Bool) : Prop where
  stack : b.stack = stk v
  holds : Holds b.bp B
  zeros : B.count false = v.length
  ones : B.count true + (stk v).length = v.length
  pre : ∀ j, j < v.length → ∃ P, P ++ [false] <+: B ∧ P.count false = j ∧ P.count true + (stk (v.take j)).length = j

theorem build_inv (v : List Nat) : ∃ B, Inv v (v.foldl push ⟨[], BVB.empty⟩) B := by
  induction v using snoc_induction with
  | h0 => exact ⟨[], rfl, holds_empty, rfl, rfl, by intro j h; simp at h⟩
  | h1 v x ih =>
      obtain ⟨B, h⟩ := ih
      rw [List.foldl_append, List.foldl_cons, List.foldl_nil]
      generalize v.foldl push ⟨[], BVB.empty⟩ = b at h
      obtain ⟨e1, c, e2, e3⟩ := popLoop_spec x b.stack (b.bp.pushBack false) (B ++ [false]) (by rw [h.stack]; exact stk_sorted v)
        (holds_push _ _ _ h.holds)
      rw [h.stack] at e1 e2 e3
      refine ⟨B ++ [false] ++ List.replicate c true, ?_, ?_, ?_, ?_, ?_⟩
      · unfold push
        dsimp only
        rw [stk_concat, h.stack, e1]
      · unfold push
        rw [h.stack]
        exact e2
      · rw [List.count_append, List.count_append, h.zeros, List.count_replicate]
        simp
      · rw [List.count_append, List.count_append, List.count_replicate, stk_concat]
        have := h.ones
        simp
        omega
      · intro j hj
        rw [List.length_append] at hj
        simp only [List.length_cons, List.length_nil] at hj
        by_cases hjv : j < v.length
        · obtain ⟨P, p1, p2, p3⟩ := h.pre j hjv
          refine ⟨P, p1.trans ?_, p2, ?_⟩
          · rw [List.append_assoc]; exact List.prefix_append _ _
          · rw [List.take_append_of_le_length (by omega)]; exact p3
        · have : j = v.length := by omega
          subst this
          refine ⟨B, List.prefix_append _ _, h.zeros, ?_⟩
          rw [List.take_left]
          exact h.ones

theorem drain_spec : ∀ (st : List Nat) (bp : BVB) (B : List Bool), Holds bp B → Holds (drain st bp) (B ++ List.replicate st.length true) := by
  intro st
  induction st with
  | nil => intro bp B h; simpa [drain] using h
  | cons x st ih =>
      intro bp B h
      have := ih (bp.pushBack true) (B ++ [true]) (holds_push bp B true h)
      rw [List.append_assoc] at this
      exact this

/-- size of the stack before value `j` -/
def dep (v : List Nat) (j : Nat) : Nat := (stk (v.take j)).length

/-- the bits of the tree -/
theorem finalize_spec (v : List Nat) : ∃ B, Holds (finalize (v.foldl push ⟨[], BVB.empty⟩)) B.reverse ∧
    B.length = 2 * v.length + 2 ∧ B.count false = v.length + 1 ∧
    ∀ j, j ≤ v.length → ∃ P, P ++ [false] <+: B ∧ P.count false = j ∧ P.count true + dep v j = j := by
  obtain ⟨B, h⟩ := build_inv v
  generalize v.foldl push ⟨[], BVB.empty⟩ = b at h
  have h1 := drain_spec b.stack (b.bp.pushBack false) _ (holds_push _ _ _ h.holds)
  have h2 := holds_push _ _ true h1
  obtain ⟨r, r1, r2⟩ := run_spec _ _ BitOp.reverse h2 trivial
  injection r1 with r1
  rw [← r1] at r2
  refine ⟨_, r2, ?_, ?_, ?_⟩
  · have e : ∀ L : List Bool, L.length = L.count false + L.count true := by
      intro L
      induction L with
      | nil => rfl
      | cons x L ih => cases x <;> simp [ih] <;> omega
    have := e B
    have := h.ones
    have := h.zeros
    rw [h.stack]
    simp
    omega
  · rw [h.stack]
    simp [h.zeros, List.count_replicate]
  · intro j hj
    by_cases hjv : j < v.length
    · obtain ⟨P, p1, p2, p3⟩ := h.pre j hjv
      refine ⟨P, p1.trans ?_, p2, p3⟩
      rw [List.append_assoc, List.append_assoc]
      exact List.prefix_append _ _
    · have : j = v.length := by omega
      subst this
      refine ⟨B, ?_, h.zeros, ?_⟩
      · rw [List.append_assoc]
        exact List.prefix_append _ _
      · unfold dep
        rw [List.take_length]
        exact h.ones

/-- the position of the zero of value `j` -/
def pos (v : List Nat) (j : Nat) : Nat := 2 * v.length + 1 - 2 * j + dep v j

theorem dep_le (v : List Nat) (j : Nat) : dep v j ≤ j := by
  have : ∀ w : List Nat, (stk w).length ≤ w.length := by
    intro w
    induction w using snoc_induction with
    | h0 => exact Nat.le_refl _
    | h1 w x ih =>
        rw [stk_concat, List.length_cons, List.length_append]
        have := List.length_filter_le (· ≤ x) (stk w)
        simp; omega
  have := this (v.take j)
  unfold dep
  rw [List.length_take] at this
  omega

theorem length_counts (L : List Bool) : L.length = L.count false + L.count true := by
  induction L with
  | nil => rfl
  | cons x L ih => cases x <;> simp [ih] <;> omega

/-- zeros of the tree -/
theorem select_pos {v : List Nat} {B : List Bool} (hl : B.length = 2 * v.length + 2) (hz : B.count false = v.length + 1)
    (hp : ∀ j, j ≤ v.length → ∃ P, P ++ [false] <+: B ∧ P.count false = j ∧ P.count true + dep v j = j) {j : Nat} (hj : j ≤ v.length) :
    pos v j < B.length ∧ B.reverse[pos v j]? = some false ∧ (B.reverse.take (pos v j)).count false = v.length - j := by
  obtain ⟨P, ⟨S, hS⟩, p2, p3⟩ := hp j hj
  have hlen := length_counts P
  have hd := dep_le v j
  have e : pos v j = S.length := by
    have : B.length = P.length + 1 + S.length := by rw [← hS]; simp; omega
    unfold pos
    omega
  have hr : B.reverse = S.reverse ++ (false :: P.reverse) := by rw [← hS]; simp
  have hc : B.count false = P.count false + 1 + S.count false := by rw [← hS]; simp; omega
  have hbl : B.length = P.length + 1 + S.length := by rw [← hS]; simp; omega
  rw [e, hr]
  refine ⟨by omega, ?_, ?_⟩
  · rw [List.getElem?_append_right (by simp)]
    simp
  · rw [List.take_left' (by simp)]
    rw [List.count_reverse]
    omega

theorem filter_filter_le (c x : Nat) (h : c ≤ x) (st : List Nat) : (st.filter (· ≤ x)).filter (· ≤ c) = st.filter (· ≤ c) := by
  rw [List.filter_filter]
  apply List.filter_congr
  intro y _
  by_cases hy : y ≤ c
  · simp [hy]; omega
  · simp [hy]

/-- greater values do not touch what is below them -/
theorem stk_filter (c : Nat) (l : List Nat) : ∀ u : List Nat, (∀ x ∈ u, c < x) → (stk (l ++ u)).filter (· ≤ c) = (stk l).filter (· ≤ c) := by
  intro u
  induction u using snoc_induction with
  | h0 => intro _; rw [List.append_nil]
  | h1 u x ih =>
      intro h
      have hx := h x (by simp)
      rw [← List.append_assoc, stk_concat, List.filter_cons_of_neg (by simp; omega), filter_filter_le c x (by omega),
        ih (fun y hy => h y (by simp [hy]))]

theorem stk_filter_ge (c : Nat) (l : List Nat) : ∀ u : List Nat, (∀ x ∈ u, c ≤ x) →
    ((stk l).filter (· ≤ c)).length ≤ ((stk (l ++ u)).filter (· ≤ c)).length := by
  intro u
  induction u using snoc_induction with
  | h0 => intro _; rw [List.append_nil]; exact Nat.le_refl _
  | h1 u x ih =>
      intro h
      have hx := h x (by simp)
      have h1 := ih (fun y hy => h y (by simp [hy]))
      rw [← List.append_assoc, stk_concat, List.filter_cons, filter_filter_le c x hx]
      split
      · rw [List.length_cons]; omega
      · exact h1

theorem take_succ_eq {v : List Nat} {j : Nat} (hj : j < v.length) : v.take (j + 1) = v.take j ++ [v[j]] :=
  (List.take_append_getElem hj).symm

theorem take_split (v : List Nat) {i j : Nat} (h : i ≤ j) : v.take j = v.take i ++ (v.drop i).take (j - i) := by
  have : j = i + (j - i) := by omega
  rw [this, List.take_add]
  congr 2; omega

theorem mem_slice {v : List Nat} {i j x : Nat} (hx : x ∈ (v.drop i).take (j - i)) : ∃ k, i ≤ k ∧ k < j ∧ v[k]? = some x := by
  obtain ⟨k, hk, hkx⟩ := List.mem_iff_getElem.mp hx
  rw [List.length_take, List.length_drop] at hk
  rw [List.getElem_take, List.getElem_drop] at hkx
  exact ⟨i + k, by omega, by omega, by rw [← hkx]; exact List.getElem?_eq_getElem _⟩

/-- the depth at the leftmost minimum is at most the depth to its left -/
theorem dep_left {v : List Nat} {j m : Nat} (hjm : j < m) (hm : m < v.length) (hlt : ∀ k (hk : k < m), j ≤ k → v[m] < v[k]) :
    dep v (m + 1) ≤ dep v (j + 1) := by
  unfold dep
  rw [take_succ_eq hm, take_succ_eq (show j < v.length by omega), stk_concat, stk_concat, List.length_cons, List.length_cons,
    take_split v (show j ≤ m by omega), stk_filter]
  · apply Nat.succ_le_succ
    have h1 := hlt j hjm (Nat.le_refl _)
    rw [← filter_filter_le v[m] v[j] (by omega)]
    exact List.length_filter_le _ _
  · intro x hx
    obtain ⟨k, k1, k2, k3⟩ := mem_slice hx
    have := hlt k k2 k1
    rw [List.getElem?_eq_getElem (by omega)] at k3
    injection k3 with k3
    omega

/-- and less than the depth to its right -/
theorem dep_right {v : List Nat} {j m : Nat} (hmj : m < j) (hj : j < v.length) (hle : ∀ k (hk : k ≤ j), m ≤ k → v[m] ≤ v[k]) :
    dep v (m + 1) < dep v (j + 1) := by
  unfold dep
  have hm : m < v.length := by omega
  rw [take_succ_eq hj, stk_concat, List.length_cons, take_split v (show m + 1 ≤ j by omega)]
  apply Nat.lt_succ_of_le
  have h1 := stk_filter_ge v[m] (v.take (m + 1)) ((v.drop (m + 1)).take (j - (m + 1))) (by
    intro x hx
    obtain ⟨k, k1, k2, k3⟩ := mem_slice hx
    have := hle k (by omega) (by omega)
    rw [List.getElem?_eq_getElem (by omega)] at k3
    injection k3 with k3
    omega)
  have h2 : (stk (v.take (m + 1))).filter (· ≤ v[m]) = stk (v.take (m + 1)) := by
    rw [take_succ_eq hm, stk_concat, List.filter_cons_of_pos (by simp), filter_filter_le _ _ (Nat.le_refl _)]
  rw [h2] at h1
  refine Nat.le_trans h1 ?_
  have h3 := hle j (Nat.le_refl _) (by omega)
  rw [← filter_filter_le v[m] v[j] h3]
  exact List.length_filter_le _ _

/-- what the tree stores -/
structure Rep (t : BP) (v : List Nat) : Prop where
  rep : t.Rep
  size : t.rs.bv.size = 2 * v.length + 2
  zero : ∀ j, j ≤ v.length → bitAt t.rs.bv.bits (pos v j) = false ∧ cnt (fun i => !bitAt t.rs.bv.bits i) (pos v j) = v.length - j

theorem build_spec (v : List Nat) (after : W) (hv : v.length < 2 ^ 30 - 1) : ∃ t, build v after = .ok t ∧ Rep t v := by
  obtain ⟨B, b1, b2, b3, b4⟩ := finalize_spec v
  have hs : (finalize (v.foldl push ⟨[], BVB.empty⟩)).size = 2 * v.length + 2 := by rw [b1.size, List.length_reverse, b2]
  obtain ⟨t, t1, t2, t3⟩ := BP.build_spec b1.wf after false true (by omega) (by omega)
  have hbits : ∀ i, bitAt t.rs.bv.bits i = B.reverse.getD i false := by rw [t2]; exact b1.bits
  refine ⟨t, t1, t3, by rw [t2]; exact hs, ?_⟩
  intro j hj
  obtain ⟨s1, s2, s3⟩ := select_pos b2 b3 b4 hj
  constructor
  · rw [hbits, List.getD_eq_getElem?_getD, s2]; rfl
  · rw [count_false hbits _ (by rw [List.length_reverse]; omega), s3]

theorem dep_succ_le {v : List Nat} {j : Nat} (hj : j < v.length) : dep v (j + 1) ≤ dep v j + 1 := by
  unfold dep
  rw [take_succ_eq hj, stk_concat, List.length_cons]
  have := List.length_filter_le (· ≤ v[j]) (stk (v.take j))
  omega

theorem dep_pos {v : List Nat} {j : Nat} (hj : j < v.length) : 0 < dep v (j + 1) := by
  unfold dep
  rw [take_succ_eq hj, stk_concat, List.length_cons]
  omega

/-- `rmq(a, b)`: the position of the leftmost minimum -/
theorem rmq_spec {t : BP} {v : List Nat} (H : Rep t v) {a b m : Nat} (hab : a ≤ b) (hb : b < v.length)
    (ham : a ≤ m) (hmb : m ≤ b) (hmin : ∀ k (hk : k ≤ b), a ≤ k → v[m] ≤ v[k]) (hleft : ∀ k (hk : k < m), a ≤ k → v[m] < v[k]) :
    rmq t a b = .ok m := by
  unfold rmq
  by_cases hne : a = b
  · rw [if_pos hne]
    apply congrArg Except.ok
    omega
  rw [if_neg hne]
  have hsz := H.size
  have hsm := H.rep.small
  have hn : size t = v.length := by unfold size; omega
  obtain ⟨n, hN⟩ : ∃ n, n = v.length := ⟨_, rfl⟩
  rw [← hN] at hsz hn
  dsimp only
  rw [hn, if_neg (by omega)]
  -- zeros
  obtain ⟨z, hz⟩ : ∃ z : Nat → Nat, z = cnt (fun i => !bitAt t.rs.bv.bits i) := ⟨_, rfl⟩
  have hzp : ∀ j, j ≤ n → z (pos v j) = n - j := fun j hj => by rw [hz]; exact (H.zero j (by omega)).2.trans (by omega)
  have hzs : ∀ j, j ≤ n → z (pos v j + 1) = n - j + 1 := fun j hj => by
    rw [← hzp j hj, hz, cnt_succ, (H.zero j (by omega)).1]; rfl
  have hmono : ∀ p q, p ≤ q → z p ≤ z q := fun p q h => by rw [hz]; exact cnt_mono _ h
  have hposlt : ∀ j, j ≤ n → pos v j < 2 * n + 2 := fun j hj => by
    have := dep_le v j
    unfold pos; omega
  have hsel : ∀ j, j ≤ n → t.rs.select0 (n - j) = .ok (pos v j) := by
    intro j hj
    have hlt : n - j < cnt (fun i => !bitAt t.rs.bv.bits i) t.rs.bv.size := by
      have h1 := hzs j hj
      have h2 := hmono (pos v j + 1) t.rs.bv.size (by have := hposlt j hj; omega)
      rw [hz] at h1 h2
      omega
    obtain ⟨p, p1, p2, p3⟩ := RS.select0_spec H.rep.rs hlt
    rw [p1]
    apply congrArg Except.ok
    apply p3.unique
    refine ⟨?_, ?_⟩
    · dsimp only
      rw [(H.zero j (by omega)).1]; rfl
    · exact (H.zero j (by omega)).2.trans (by omega)
  have hE : ∀ q, exW t.rs.bv.bits q = (q : Int) - 2 * (z q : Int) := by
    intro q
    unfold exW exc
    have := cnt_not (bitAt t.rs.bv.bits) q
    rw [hz]
    omega
  have s1 := hsel (b + 1) (by omega)
  have s2 := hsel b (by omega)
  have s3 := hsel a (by omega)
  rw [show n - (b + 1) = n - b - 1 by omega] at s1
  rw [s1, M.ok_bind, s2, M.ok_bind, s3, M.ok_bind]
  have d1 := dep_le v (b + 1)
  have d2 := dep_le v b
  have d3 := dep_le v a
  have hexT : int32 ((pos v (b + 1) : Int) - 2 * ((n - b - 1 : Nat) : Int)) = dep v (b + 1) + 1 := by
    have : (pos v (b + 1) : Int) - 2 * ((n - b - 1 : Nat) : Int) = dep v (b + 1) + 1 := by
      unfold pos
      omega
    rw [this]
    apply int32_id <;> omega
  rw [hexT]
  have hxy : pos v b < pos v a := by
    apply Nat.lt_of_not_le
    intro hc
    have := hmono _ _ hc
    rw [hzp a (by omega), hzp b (by omega)] at this
    omega
  obtain ⟨e, w, r1, r2⟩ := BP.excessRmq_spec H.rep (a := pos v b) (e := pos v a) (by omega) (by have := hposlt a (by omega); omega)
  rw [r1, M.ok_bind]
  dsimp only
  -- the excess at the positions of the range
  have hcase : ∀ q, pos v b < q → q ≤ pos v a → ∃ j, a ≤ j ∧ j < b ∧ z q = n - j ∧ pos v (j + 1) < q ∧ q ≤ pos v j ∧
      (dep v (j + 1) : Int) ≤ exW t.rs.bv.bits q := by
    intro q h1 h2
    have k1 := hmono _ _ h1
    rw [Nat.succ_eq_add_one, hzs b (by omega)] at k1
    have k2 := hmono _ _ h2
    rw [hzp a (by omega)] at k2
    obtain ⟨j, hj⟩ : ∃ j, j = n - z q := ⟨_, rfl⟩
    have hj1 : pos v (j + 1) < q := by
      apply Nat.lt_of_not_le
      intro hc
      have := hmono _ _ hc
      rw [hzp (j + 1) (by omega)] at this
      omega
    have hj2 : q ≤ pos v j := by
      apply Nat.le_of_not_lt
      intro hc
      have := hmono _ _ hc
      rw [Nat.succ_eq_add_one, hzs j (by omega)] at this
      omega
    refine ⟨j, by omega, by omega, by omega, hj1, hj2, ?_⟩
    rw [hE]
    have := dep_le v (j + 1)
    unfold pos at hj1
    omega
  have hEx : exW t.rs.bv.bits (pos v b) = dep v b + 1 := by
    rw [hE, hzp b (by omega)]
    unfold pos
    omega
  -- depths
  have hDr : ∀ j, m < j → j ≤ b → dep v (m + 1) < dep v (j + 1) := by
    intro j h1 h2
    apply dep_right h1 (by omega)
    intro k hk hmk
    exact hmin k (by omega) (by omega)
  have hDl : ∀ j, a ≤ j → j < m → dep v (m + 1) ≤ dep v (j + 1) := by
    intro j h1 h2
    apply dep_left h2 (by omega)
    intro k hk hjk
    exact hleft k hk (by omega)
  by_cases hmb2 : m = b
  · subst hmb2
    have : (dep v (m + 1) : Int) ≤ e := by
      rw [← r2.val]
      have w1 := r2.lo_le
      have w2 := r2.le_hi
      by_cases hw : w = pos v m
      · rw [hw, hEx]
        have := dep_succ_le (v := v) (j := m) (by omega)
        omega
      · obtain ⟨j, j1, j2, j3, j4, j5, j6⟩ := hcase w (by omega) w2
        have := hDl j j1 j2
        omega
    rw [if_pos (by omega)]
  · have hpm : pos v (m + 1) + 1 ≤ pos v a := by
      apply Nat.lt_of_not_le
      intro hc
      have := hmono _ _ hc
      rw [hzp a (by omega), hzp (m + 1) (by omega)] at this
      omega
    have hpb : pos v b ≤ pos v (m + 1) := by
      apply Nat.le_of_not_lt
      intro hc
      have := hmono _ _ hc
      rw [Nat.succ_eq_add_one, hzs (m + 1) (by omega), hzp b (by omega)] at this
      omega
    have hEm : exW t.rs.bv.bits (pos v (m + 1) + 1) = dep v (m + 1) := by
      rw [hE, hzs (m + 1) (by omega)]
      have := dep_le v (m + 1)
      unfold pos
      omega
    have hbest : Best (exW t.rs.bv.bits) (pos v b) (pos v a) (dep v (m + 1)) (pos v (m + 1) + 1) := by
      have hDb : (dep v (m + 1) : Int) < dep v b + 1 := by
        by_cases hmb3 : m + 1 = b
        · rw [hmb3]; omega
        · have h1 := hDr (b - 1) (by omega) (by omega)
          rw [show b - 1 + 1 = b by omega] at h1
          omega
      refine ⟨by omega, hpm, hEm, ?_, ?_⟩
      · intro q q1 q2
        by_cases hq : q = pos v b
        · rw [hq, hEx]; omega
        · obtain ⟨j, j1, j2, j3, j4, j5, j6⟩ := hcase q (by omega) q2
          have : dep v (m + 1) ≤ dep v (j + 1) := by
            rcases Nat.lt_trichotomy j m with h | h | h
            · exact hDl j j1 h
            · rw [h]; exact Nat.le_refl _
            · exact Nat.le_of_lt (hDr j h (by omega))
          omega
      · intro q q1 q2
        by_cases hq : q = pos v b
        · rw [hq, hEx]; omega
        · obtain ⟨j, j1, j2, j3, j4, j5, j6⟩ := hcase q (by omega) (by omega)
          have hzq := hmono q (pos v (m + 1)) (by omega)
          rw [hzp (m + 1) (by omega)] at hzq
          have := hDr j (by omega) (by omega)
          omega
    obtain ⟨u1, u2⟩ := r2.unique hbest
    have hDb := hDr b (by omega) (Nat.le_refl _)
    rw [u1, u2, if_neg (by omega)]
    apply congrArg Except.ok
    have := dep_le v (m + 1)
    have e1 : ((pos v (m + 1) + 1 : Nat) : Int) - (dep v (m + 1) : Int) = 2 * ((n - m : Nat) : Int) := by
      unfold pos
      omega
    rw [e1]
    omega

end CT
end AC
