import Verif.Proofs.UnsortedList
import Verif.Proofs.TopK
/-!
# `unsorted_list::topk`
-/
namespace AC
namespace UL
variable {u : UL} {v : List Nat}

theorem take_set_succ {α : Type} (buf : List α) (i : Nat) (x : α) (h : i < buf.length) :
    (buf.set i x).take (i + 1) = buf.take i ++ [x] := by
  rw [List.take_set, List.take_add_one, List.getElem?_eq_getElem h, Option.toList_some]
  rw [List.set_append_right _ _ (by simp; omega)]
  simp [Nat.min_eq_left (Nat.le_of_lt h)]

/-- the state of the loop: positions `P` have been reported -/
structure Inv (v : List Nat) (all : List Nat) (q : List SR) (P : List Nat) : Prop where
  heap : IsHeap SR.val q
  wf : ∀ s ∈ q, s.WF v
  perm : (P ++ q.flatMap SR.cover).Perm all
  cross : ∀ x ∈ P, ∀ y ∈ q.flatMap SR.cover, v.getD x 0 ≤ v.getD y 0

theorem Inv.step (std : StdLib) (h : u.Rep v) {all : List Nat} {m : SR} {q : List SR} {P : List Nat} (hi : Inv v all (m :: q) P) :
    ∃ q1 q2 q3, Heap.pop std SR.val (m :: q) = .ok q1 ∧ pushLeft std SR.val id u m.lo m.pos q1 = .ok q2 ∧
      pushRight std SR.val id u m.pos m.hi q2 = .ok q3 ∧ Inv v all q3 (P ++ [m.pos]) ∧
      (q3.flatMap SR.cover).length + 1 = ((m :: q).flatMap SR.cover).length ∧ (∀ x ∈ P, v.getD x 0 ≤ m.val) ∧
      m.val = v.getD m.pos 0 := by
  obtain ⟨q1, q2, q3, s1, s2, s3, s4, s5, s6⟩ := step_spec std h hi.heap hi.wf
  have hm := hi.wf m (List.mem_cons_self ..)
  have hmin : ∀ y ∈ (m :: q).flatMap SR.cover, m.val ≤ v.getD y 0 := by
    intro y hy
    obtain ⟨s, hs, hy⟩ := List.mem_flatMap.mp hy
    have h1 := IsHeap.top_le hi.heap s hs
    have h2 := (hi.wf s hs).le y hy
    omega
  have hmp : ∀ x ∈ P, v.getD x 0 ≤ m.val := by
    intro x hx
    rw [hm.val]
    exact hi.cross x hx m.pos (List.mem_flatMap.mpr ⟨m, List.mem_cons_self .., hm.mem⟩)
  refine ⟨q1, q2, q3, s1, s2, s3, ⟨s4, s5, ?_, ?_⟩, ?_, hmp, hm.val⟩
  · refine List.Perm.trans ?_ hi.perm
    rw [List.append_assoc]
    exact List.Perm.append_left _ s6.symm
  · intro x hx y hy
    have hy' : y ∈ (m :: q).flatMap SR.cover := s6.mem_iff.mpr (List.mem_cons_of_mem _ hy)
    rcases List.mem_append.mp hx with hx | hx
    · exact hi.cross x hx y hy'
    · rw [List.mem_singleton.mp hx, ← hm.val]
      exact hmin y hy'
  · have := s6.length_eq
    simp only [List.length_cons] at this
    omega

/-- the loop without `unique` -/
theorem topkLoop_spec (std : StdLib) (h : u.Rep v) (all : List Nat) (k : Nat) : ∀ (fuel : Nat) (q : List SR) (buf : List Nat) (P : List Nat),
    Inv v all q P → P.length < k → k ≤ buf.length → buf.take P.length = P.map (fun x => v.getD x 0) →
    (P.map (fun x => v.getD x 0)).Pairwise (· ≤ ·) → (q.flatMap SR.cover).length < fuel →
    ∃ buf' P' Q', topkLoop std u k false fuel q buf P.length = .ok (buf', P'.length) ∧ buf'.length = buf.length ∧
      (P' ++ Q').Perm all ∧ buf'.take P'.length = P'.map (fun x => v.getD x 0) ∧
      (P'.map (fun x => v.getD x 0)).Pairwise (· ≤ ·) ∧ (∀ x ∈ P', ∀ y ∈ Q', v.getD x 0 ≤ v.getD y 0) ∧
      P'.length ≤ k ∧ (P'.length < k → Q' = []) := by
  intro fuel
  induction fuel with
  | zero => intro q buf P _ _ _ _ _ hf; omega
  | succ fuel ih =>
      intro q buf P hi hk hb ht hs hf
      cases q with
      | nil =>
          refine ⟨buf, P, [], rfl, rfl, hi.perm, ht, hs, by simp, by omega, fun _ => rfl⟩
      | cons m q =>
          obtain ⟨q1, q2, q3, s1, s2, s3, s4, s5, s6, s7⟩ := Inv.step std h hi
          have htop : Heap.top (m :: q) = .ok m := rfl
          unfold topkLoop
          rw [htop]
          simp only [M.ok_bind, Bool.not_false, Bool.true_or, if_true, wr_ok (show P.length < buf.length by omega)]
          have ht' : (buf.set P.length m.val).take (P ++ [m.pos]).length = (P ++ [m.pos]).map (fun x => v.getD x 0) := by
            rw [List.length_append, List.length_singleton, take_set_succ _ _ _ (by omega), ht, List.map_append, s7]
            rfl
          have hs' : ((P ++ [m.pos]).map (fun x => v.getD x 0)).Pairwise (· ≤ ·) := by
            rw [List.map_append, List.pairwise_append]
            refine ⟨hs, List.pairwise_singleton _ _, ?_⟩
            intro a ha b hb
            obtain ⟨x, hx, rfl⟩ := List.mem_map.mp ha
            simp only [List.map_cons, List.map_nil, List.mem_singleton] at hb
            rw [hb, ← s7]
            exact s6 x hx
          split
          · rename_i hk1
            refine ⟨_, P ++ [m.pos], q3.flatMap SR.cover, ?_, by simp, s4.perm, ht', hs', s4.cross, by simp; omega, ?_⟩
            · simp
            · intro hlt; simp at hlt; omega
          · rename_i hk1
            rw [s1]; simp only [M.ok_bind, s2, s3]
            obtain ⟨buf', P', Q', r1, r2, r3⟩ := ih q3 (buf.set P.length m.val) (P ++ [m.pos]) s4 (by simp; omega) (by simp; omega)
              ht' hs' (by omega)
            rw [List.length_append, List.length_singleton] at r1
            exact ⟨buf', P', Q', r1, by rw [r2]; simp, r3⟩

/-- the loop writes past the end of the buffer when `k` is zero or greater than the size of the buffer -/
theorem topkLoop_overflow (std : StdLib) (h : u.Rep v) (all : List Nat) (k : Nat) : ∀ (fuel : Nat) (q : List SR) (buf : List Nat) (P : List Nat),
    Inv v all q P → (k = 0 ∨ buf.length < k) → P.length ≤ buf.length → buf.length < P.length + (q.flatMap SR.cover).length →
    (q.flatMap SR.cover).length < fuel →
    topkLoop std u k false fuel q buf P.length = .error .oob := by
  intro fuel
  induction fuel with
  | zero => intro q buf P _ _ _ _ hf; omega
  | succ fuel ih =>
      intro q buf P hi hk hb hc hf
      cases q with
      | nil => simp at hc; omega
      | cons m q =>
          obtain ⟨q1, q2, q3, s1, s2, s3, s4, s5, s6, s7⟩ := Inv.step std h hi
          have htop : Heap.top (m :: q) = .ok m := rfl
          unfold topkLoop
          rw [htop]
          simp only [M.ok_bind, Bool.not_false, Bool.true_or, if_true]
          by_cases hlt : P.length < buf.length
          · rw [wr_ok hlt]
            simp only [M.ok_bind]
            rw [if_neg (by omega), s1]
            simp only [M.ok_bind, s2, s3]
            have := ih q3 (buf.set P.length m.val) (P ++ [m.pos]) s4 (by simpa using hk) (by simp; omega) (by simp at *; omega) (by omega)
            rw [List.length_append, List.length_singleton] at this
            exact this
          · unfold wr
            rw [if_neg hlt]
            rfl

/-- the loop with `unique` -/
theorem topkLoop_unique (std : StdLib) (h : u.Rep v) (all : List Nat) (k : Nat) : ∀ (fuel : Nat) (q : List SR) (buf : List Nat) (P : List Nat) (i : Nat),
    Inv v all q P → i < k → k ≤ buf.length → (buf.take i).Pairwise (· < ·) →
    (∀ x, x ∈ buf.take i ↔ x ∈ P.map (fun x => v.getD x 0)) → (q.flatMap SR.cover).length < fuel →
    ∃ buf' n, topkLoop std u k true fuel q buf i = .ok (buf', n) ∧ buf'.length = buf.length ∧ n ≤ k ∧
      Spec.IsTopK (fun x => x ∈ all.map (fun x => v.getD x 0)) k (buf'.take n) := by
  intro fuel
  induction fuel with
  | zero => intro q buf P i _ _ _ _ _ hf; omega
  | succ fuel ih =>
      intro q buf P i hi hk hb hs ht hf
      have hsub : ∀ x, x ∈ P.map (fun x => v.getD x 0) → x ∈ all.map (fun x => v.getD x 0) := by
        intro x hx
        obtain ⟨y, hy, rfl⟩ := List.mem_map.mp hx
        exact List.mem_map.mpr ⟨y, hi.perm.mem_iff.mp (List.mem_append_left _ hy), rfl⟩
      cases q with
      | nil =>
          refine ⟨buf, i, rfl, rfl, by omega, hs, ?_, by simp; omega, ?_⟩
          · intro x hx; exact hsub x ((ht x).mp hx)
          · intro x hx hxE
            obtain ⟨y, hy, rfl⟩ := List.mem_map.mp hx
            have hy' := hi.perm.mem_iff.mpr hy
            simp only [List.flatMap_nil, List.append_nil] at hy'
            exact absurd ((ht _).mpr (List.mem_map.mpr ⟨y, hy', rfl⟩)) hxE
      | cons m q =>
          obtain ⟨q1, q2, q3, s1, s2, s3, s4, s5, s6, s7⟩ := Inv.step std h hi
          have htop : Heap.top (m :: q) = .ok m := rfl
          have hbs := std.binarySearch_spec (buf.take i) m.val (hs.imp (fun h => Nat.le_of_lt h))
          unfold topkLoop
          rw [htop]
          simp only [M.ok_bind, Bool.not_true, Bool.false_or]
          have hle : ∀ x ∈ buf.take i, x ≤ m.val := by
            intro x hx
            obtain ⟨y, hy, rfl⟩ := List.mem_map.mp ((ht x).mp hx)
            exact s6 y hy
          by_cases hmem : m.val ∈ buf.take i
          · rw [hbs.mpr hmem]
            simp only [Bool.not_true, Bool.false_eq_true, if_false]
            rw [s1]; simp only [M.ok_bind, s2, s3]
            apply ih q3 buf (P ++ [m.pos]) i s4 hk hb hs _ (by omega)
            intro x
            rw [ht x, List.map_append, List.mem_append]
            constructor
            · exact Or.inl
            · rintro (hx | hx)
              · exact hx
              · simp only [List.map_cons, List.map_nil, List.mem_singleton] at hx
                rw [hx, ← s7, ← ht]; exact hmem
          · have hf' : std.binarySearch (buf.take i) m.val = false := by
              cases hc : std.binarySearch (buf.take i) m.val with
              | false => rfl
              | true => exact absurd (hbs.mp hc) hmem
            rw [hf']
            simp only [Bool.not_false, if_true, wr_ok (show i < buf.length by omega), M.ok_bind]
            have htake : (buf.set i m.val).take (i + 1) = buf.take i ++ [m.val] := take_set_succ _ _ _ (by omega)
            have hs' : ((buf.set i m.val).take (i + 1)).Pairwise (· < ·) := by
              rw [htake, List.pairwise_append]
              refine ⟨hs, List.pairwise_singleton _ _, ?_⟩
              intro a ha b hb
              rw [List.mem_singleton.mp hb]
              have := hle a ha
              rcases Nat.lt_or_eq_of_le this with h | h
              · exact h
              · rw [h] at ha; exact absurd ha hmem
            have ht' : ∀ x, x ∈ (buf.set i m.val).take (i + 1) ↔ x ∈ (P ++ [m.pos]).map (fun x => v.getD x 0) := by
              intro x
              rw [htake, List.map_append, List.mem_append, List.mem_append, ht x, s7]
              rfl
            split
            · rename_i hk1
              refine ⟨_, i + 1, rfl, by simp, by omega, hs', ?_, by simp; omega, ?_⟩
              · intro x hx
                obtain ⟨y, hy, rfl⟩ := List.mem_map.mp ((ht' x).mp hx)
                exact List.mem_map.mpr ⟨y, s4.perm.mem_iff.mp (List.mem_append_left _ hy), rfl⟩
              · intro x hx hxE
                refine ⟨by simp; omega, ?_⟩
                obtain ⟨y, hy, rfl⟩ := List.mem_map.mp hx
                have hy' : y ∈ q3.flatMap SR.cover := by
                  rcases List.mem_append.mp (s4.perm.mem_iff.mpr hy) with h | h
                  · exact absurd ((ht' _).mpr (List.mem_map.mpr ⟨y, h, rfl⟩)) hxE
                  · exact h
                intro e he
                obtain ⟨z, hz, rfl⟩ := List.mem_map.mp ((ht' e).mp he)
                have := s4.cross z hz y hy'
                rcases Nat.lt_or_eq_of_le this with h | h
                · exact h
                · rw [h] at he; exact absurd he hxE
            · rename_i hk1
              rw [s1]; simp only [M.ok_bind, s2, s3]
              obtain ⟨buf', n, r1, r2, r3⟩ := ih q3 (buf.set i m.val) (P ++ [m.pos]) (i + 1) s4 (by omega) (by simp; omega) hs' ht' (by omega)
              exact ⟨buf', n, r1, by rw [r2]; simp, r3⟩

theorem copyLoop_spec (h : u.Rep v) (lo : Nat) : ∀ (n i : Nat) (buf : List Nat), lo + i + n ≤ v.length → i + n ≤ buf.length →
    buf.take i = (List.range' lo i).map (fun x => v.getD x 0) →
    ∃ buf', u.copyLoop lo n i buf = .ok buf' ∧ buf'.length = buf.length ∧
      buf'.take (i + n) = (List.range' lo (i + n)).map (fun x => v.getD x 0) := by
  intro n
  induction n with
  | zero => intro i buf _ _ h; exact ⟨buf, rfl, rfl, h⟩
  | succ n ih =>
      intro i buf h1 h2 h3
      unfold copyLoop
      rw [h.access _ (by omega), M.ok_bind, wr_ok (by omega), M.ok_bind]
      obtain ⟨buf', b1, b2, b3⟩ := ih (i + 1) (buf.set i (v.getD (lo + i) 0)) (by omega) (by simp; omega)
        (by
          rw [take_set_succ _ _ _ (by omega), h3]
          have : List.range' lo (i + 1) = List.range' lo i ++ [lo + i] := by rw [List.range'_1_concat]
          rw [this, List.map_append]
          rfl)
      refine ⟨buf', b1, by rw [b2]; simp, ?_⟩
      rw [show i + (n + 1) = i + 1 + n by omega]; exact b3

theorem copyLoop_overflow (h : u.Rep v) (lo : Nat) : ∀ (n i : Nat) (buf : List Nat), lo + i + n ≤ v.length → i ≤ buf.length →
    buf.length < i + n → u.copyLoop lo n i buf = .error .oob := by
  intro n
  induction n with
  | zero => intro i buf _ h1 h2; omega
  | succ n ih =>
      intro i buf h1 h2 h3
      unfold copyLoop
      rw [h.access _ (by omega), M.ok_bind]
      by_cases hi : i < buf.length
      · rw [wr_ok hi, M.ok_bind]
        exact ih (i + 1) _ (by omega) (by simp; omega) (by simp; omega)
      · unfold wr
        rw [if_neg hi]
        rfl

theorem range_slice (v : List Nat) {a b : Nat} (hb : b ≤ v.length) :
    (List.range' a (b - a)).map (fun x => v.getD x 0) = (v.drop a).take (b - a) := by
  apply List.ext_getElem
  · simp; omega
  · intro i h1 h2
    simp only [List.length_map, List.length_range'] at h1
    simp only [List.getElem_map, List.getElem_range', List.getElem_take, List.getElem_drop, Nat.one_mul]
    rw [List.getD_eq_getElem?_getD, List.getElem?_eq_getElem (by omega)]
    rfl

/-- the start of the loop -/
theorem init_inv (std : StdLib) (h : u.Rep v) {a b : Nat} (hab : a < b) (hb : b ≤ v.length) :
    ∃ pos, CT.rmq u.rmq a (b - 1) = .ok pos ∧ u.access pos = .ok (v.getD pos 0) ∧
      Inv v (List.range' a (b - a)) (Heap.push std SR.val [] ⟨a, b - 1, pos, v.getD pos 0⟩) [] ∧
      ((Heap.push std SR.val [] ⟨a, b - 1, pos, v.getD pos 0⟩).flatMap SR.cover).length = b - a := by
  obtain ⟨m, m1, m2⟩ := rmq_min h (show a ≤ b - 1 by omega) (by omega)
  have hp := Heap.push_spec std (IsHeap.nil (key := SR.val)) (⟨a, b - 1, m, v.getD m 0⟩ : SR)
  have hc : ((Heap.push std SR.val [] ⟨a, b - 1, m, v.getD m 0⟩).flatMap SR.cover).Perm (List.range' a (b - a)) := by
    refine (List.Perm.flatMap_right _ hp.1).trans ?_
    simp only [List.flatMap_cons, List.flatMap_nil, List.append_nil, SR.cover]
    rw [show b - 1 + 1 - a = b - a by omega]
  refine ⟨m, m1, h.access m (by have := m2.2.1; omega), ⟨hp.2, ?_, by simpa using hc, by simp⟩, by rw [hc.length_eq]; simp⟩
  intro s hs
  have := hp.1.mem_iff.mp hs
  simp only [List.mem_singleton] at this
  subst this
  exact ⟨m2, by simp only; omega, rfl⟩

end UL
theorem UL.topk_spec (std : StdLib) {u : UL} {v : List Nat} (u2 : u.Rep v) {a b k : Nat} {buf : List Nat} (hab : a ≤ b) (hb : b ≤ v.length)
    (hk : 1 ≤ k ∨ a = b) (hbuf : min k (b - a) ≤ buf.length) :
    ∃ buf', UL.topk std u a b k false buf = .ok (buf', min k (b - a)) ∧ buf'.length = buf.length ∧
      Spec.IsSortedPrefix ((v.drop a).take (b - a)) k (buf'.take (min k (b - a))) := by
  unfold UL.topk
  simp only
  split
  · rename_i hc
    rw [Nat.min_eq_right hc] at *
    obtain ⟨buf', b1, b2, b3⟩ := UL.copyLoop_spec u2 a (b - a) 0 buf (by omega) (by omega) (by simp)
    rw [Nat.zero_add, UL.range_slice v hb] at b3
    rw [b1]
    have hl : (std.sort id (buf'.take (b - a))).length = b - a := by
      rw [(std.sort_perm id _).length_eq]; simp; omega
    refine ⟨_, rfl, by simp [hl]; omega, std.sort id ((v.drop a).take (b - a)), std.sort_perm _ _, std.sort_sorted id _, ?_⟩
    rw [b3] at hl
    rw [b3, List.take_append_of_le_length (by omega)]
    generalize std.sort id ((v.drop a).take (b - a)) = S at *
    rw [List.take_of_length_le (by omega), List.take_of_length_le (by omega)]
  · rename_i hc
    rw [Nat.min_eq_left (by omega)] at *
    obtain ⟨pos, p1, p2, p3, p4⟩ := UL.init_inv std u2 (show a < b by omega) hb
    rw [p1, M.ok_bind, p2, M.ok_bind]
    obtain ⟨buf', P', Q', r1, r2, r3, r4, r5, r6, r7, r8⟩ := UL.topkLoop_spec std u2 _ k (b - a + 1) _ buf [] p3 (by simp; omega)
      (by omega) (by simp) (by simp) (by omega)
    have hPk : P'.length = k := by
      rcases Nat.lt_or_eq_of_le r7 with h | h
      · rw [r8 h] at r3
        have := r3.length_eq
        simp at this
        omega
      · exact h
    rw [List.length_nil] at r1
    refine ⟨buf', by rw [r1, hPk], r2, P'.map (fun x => v.getD x 0) ++ std.sort id (Q'.map (fun x => v.getD x 0)), ?_, ?_, ?_⟩
    · rw [← UL.range_slice v hb]
      refine List.Perm.trans ?_ (r3.map _)
      rw [List.map_append]
      exact List.Perm.append_left _ (std.sort_perm _ _)
    · rw [List.pairwise_append]
      refine ⟨r5, std.sort_sorted id _, ?_⟩
      intro x hx y hy
      obtain ⟨x', hx', rfl⟩ := List.mem_map.mp hx
      obtain ⟨y', hy', rfl⟩ := List.mem_map.mp ((std.sort_perm id _).mem_iff.mp hy)
      exact r6 x' hx' y' hy'
    · rw [hPk] at r4
      rw [r4, List.take_append_of_le_length (by simp; omega), List.take_of_length_le (by simp; omega)]

theorem UL.topk_overflow (std : StdLib) {u : UL} {v : List Nat} (u2 : u.Rep v) {a b k : Nat} {buf : List Nat} (hab : a ≤ b) (hb : b ≤ v.length)
    (hk : k = 0 ∨ buf.length < k) (hl : buf.length < b - a) : UL.topk std u a b k false buf = .error .oob := by
  unfold UL.topk
  simp only
  split
  · rw [UL.copyLoop_overflow u2 a (b - a) 0 buf (by omega) (by omega) (by omega)]
    rfl
  · obtain ⟨pos, p1, p2, p3, p4⟩ := UL.init_inv std u2 (show a < b by omega) hb
    rw [p1, M.ok_bind, p2, M.ok_bind]
    exact UL.topkLoop_overflow std u2 _ k (b - a + 1) _ buf [] p3 hk (by simp) (by rw [List.length_nil]; omega) (by omega)

end AC
