import Verif.Model.UnsortedList
import Verif.Proofs.MinHeap
import Verif.Props.Rmq
import Verif.Props.CompactVector
/-!
# Lists with a range-minimum structure
-/
namespace AC
namespace UL

/-- what an `unsorted_list` or a `minimal_docids` holds -/
structure Rep (u : UL) (v : List Nat) : Prop where
  ct : CT.Rep u.rmq v
  size : u.size = v.length
  len : v.length < 2 ^ 30 - 1
  small : ∀ x ∈ v, x < 2 ^ 32
  access : ∀ i, i < v.length → u.access i = .ok (v.getD i 0)

theorem build_spec (v : List Nat) (after1 after2 : W) (hlen : v.length < 2 ^ 30 - 1) (hsmall : ∀ x ∈ v, x < 2 ^ 32)
    (hpos : ∃ x ∈ v, x ≠ 0) : ∃ u, build v after1 after2 = .ok u ∧ u.Rep v := by
  obtain ⟨t, t1, t2⟩ := CT.build_spec v after1 hlen
  have hw : ∀ x ∈ toWords v, x.toNat < 2 ^ 32 := by
    intro x hx
    obtain ⟨y, hy, rfl⟩ := List.mem_map.mp hx
    have := hsmall y hy
    rw [BitVec.toNat_ofNat]; omega
  obtain ⟨c, c1, c2, _, _, c5⟩ := Props.C16_auto (toWords v) after2
    (by
      obtain ⟨x, hx, hx0⟩ := hpos
      refine ⟨BitVec.ofNat 64 x, List.mem_map.mpr ⟨x, hx, rfl⟩, ?_⟩
      intro h0
      have h1 := congrArg BitVec.toNat h0
      rw [BitVec.toNat_ofNat] at h1
      have := hsmall x hx
      simp at h1
      omega)
    (fun x hx => by have := hw x hx; omega)
  refine ⟨⟨t, c⟩, ?_, t2, ?_, hlen, hsmall, ?_⟩
  · unfold build
    rw [t1]; simp only [M.ok_bind, c1]
  · show c.size = _
    rw [c2]; simp [toWords]
  · intro i hi
    have hi2 : i < (toWords v).length := by simpa [toWords] using hi
    have h1 := c5 (fun x hx => by have := hw x hx; omega) i hi2
    have hs := hsmall _ (List.getElem_mem hi)
    show (c.access i >>= fun x => _) = _
    rw [h1]
    simp only [M.ok_bind, toWords, List.getElem_map, BitVec.toNat_ofNat, id32]
    apply congrArg Except.ok
    rw [List.getD_eq_getElem?_getD, List.getElem?_eq_getElem hi, Option.getD_some]
    omega

/-- building fails when every value is zero -/
theorem build_zero (n : Nat) (after1 after2 : W) (hn : n < 2 ^ 30 - 2) :
    build (List.replicate (n + 1) 0) after1 after2 = .error .thrown := by
  obtain ⟨t, t1, t2⟩ := CT.build_spec (List.replicate (n + 1) 0) after1 (by simp; omega)
  unfold build
  rw [t1]
  have : toWords (List.replicate (n + 1) 0) = List.replicate (n + 1) (0 : W) := by simp [toWords]
  simp only [M.ok_bind, this, Props.C16_auto_zero]
  rfl

variable {u : UL} {v : List Nat}

/-- position `m` holds a minimum of `[lo, hi]` -/
def IsMin (v : List Nat) (lo hi m : Nat) : Prop := lo ≤ m ∧ m ≤ hi ∧ ∀ k, lo ≤ k → k ≤ hi → v.getD m 0 ≤ v.getD k 0

theorem rmq_min (h : u.Rep v) {lo hi : Nat} (hl : lo ≤ hi) (hh : hi < v.length) :
    ∃ m, CT.rmq u.rmq lo hi = .ok m ∧ IsMin v lo hi m := by
  obtain ⟨n, rfl⟩ := Nat.exists_eq_add_of_le hl
  obtain ⟨m, hm, h1, h2, h3, h4⟩ := Props.leftmost_min v lo n hh
  refine ⟨m, CT.rmq_spec h.ct hl hh h1 h2 h3 h4, h1, h2, ?_⟩
  intro k k1 k2
  have := h3 k k2 k1
  rw [List.getD_eq_getElem?_getD, List.getD_eq_getElem?_getD, List.getElem?_eq_getElem hm, List.getElem?_eq_getElem (by omega)]
  exact this

theorem scanLoop_spec (h : u.Rep v) : ∀ (n i pos min lo : Nat), i + n ≤ v.length → lo ≤ pos → pos ≤ i →
    (∀ k, lo ≤ k → k < i → min ≤ v.getD k 0) →
    ((v.getD pos 0 = min ∧ pos < i) ∨ (pos = lo ∧ min = 2 ^ 32 - 1)) → 0 < i + n - lo →
    ∃ m, u.scanLoop n i pos min = .ok m ∧ IsMin v lo (i + n - 1) m := by
  intro n
  have hsm : ∀ k, k < v.length → v.getD k 0 ≤ 2 ^ 32 - 1 := by
    intro k hk
    rw [List.getD_eq_getElem?_getD, List.getElem?_eq_getElem hk]
    have := h.small _ (List.getElem_mem hk)
    simp only [Option.getD_some]; omega
  induction n with
  | zero =>
      intro i pos min lo h1 h2 h3 h4 h5 h6
      refine ⟨pos, rfl, h2, by omega, ?_⟩
      intro k k1 k2
      have := h4 k k1 (by omega)
      have := hsm pos (by omega)
      rcases h5 with h5 | h5 <;> omega
  | succ n ih =>
      intro i pos min lo h1 h2 h3 h4 h5 h6
      unfold scanLoop
      rw [h.access i (by omega)]
      simp only [M.ok_bind]
      have hi := hsm i (by omega)
      split
      · rename_i hlt
        obtain ⟨m, m1, m2⟩ := ih (i + 1) i (v.getD i 0) lo (by omega) (by omega) (by omega)
          (by
            intro k k1 k2
            by_cases hk : k = i
            · subst hk; exact Nat.le_refl _
            · have := h4 k k1 (by omega); omega)
          (Or.inl ⟨rfl, by omega⟩) (by omega)
        exact ⟨m, m1, by rw [show i + (n + 1) - 1 = i + 1 + n - 1 by omega]; exact m2⟩
      · rename_i hlt
        obtain ⟨m, m1, m2⟩ := ih (i + 1) pos min lo (by omega) (by omega) (by omega)
          (by
            intro k k1 k2
            by_cases hk : k = i
            · subst hk; omega
            · exact h4 k k1 (by omega))
          (by rcases h5 with h5 | h5
              · exact Or.inl ⟨h5.1, by omega⟩
              · exact Or.inr h5) (by omega)
        exact ⟨m, m1, by rw [show i + (n + 1) - 1 = i + 1 + n - 1 by omega]; exact m2⟩

theorem minPos_spec (h : u.Rep v) {lo hi : Nat} (hl : lo ≤ hi) (hh : hi < v.length) :
    ∃ m, u.minPos lo hi = .ok m ∧ IsMin v lo hi m := by
  unfold minPos
  split
  · obtain ⟨m, m1, m2⟩ := scanLoop_spec h (hi + 1 - lo) lo lo (2 ^ 32 - 1) lo (by omega) (Nat.le_refl _) (Nat.le_refl _)
      (by intro k; omega) (Or.inr ⟨rfl, rfl⟩) (by omega)
    exact ⟨m, m1, by rw [show lo + (hi + 1 - lo) - 1 = hi by omega] at m2; exact m2⟩
  · exact rmq_min h hl hh

/-- a range of the queue -/
structure _root_.AC.SR.WF (v : List Nat) (s : SR) : Prop where
  min : IsMin v s.lo s.hi s.pos
  hi : s.hi < v.length
  val : s.val = v.getD s.pos 0

/-- the positions of a range -/
def _root_.AC.SR.cover (s : SR) : List Nat := List.range' s.lo (s.hi + 1 - s.lo)

theorem _root_.AC.SR.WF.le {s : SR} (h : s.WF v) : ∀ k ∈ s.cover, s.val ≤ v.getD k 0 := by
  intro k hk
  unfold SR.cover at hk
  rw [List.mem_range'_1] at hk
  rw [h.val]
  exact h.min.2.2 k (by omega) (by omega)

theorem _root_.AC.SR.WF.mem {s : SR} (h : s.WF v) : s.pos ∈ s.cover := by
  unfold SR.cover
  rw [List.mem_range'_1]
  have := h.min.1; have := h.min.2.1
  omega

theorem sub_spec (h : u.Rep v) {lo hi : Nat} (hl : lo ≤ hi) (hh : hi < v.length) :
    ∃ s, u.sub lo hi = .ok s ∧ s.WF v ∧ s.lo = lo ∧ s.hi = hi := by
  obtain ⟨m, m1, m2⟩ := minPos_spec h hl hh
  refine ⟨⟨lo, hi, m, v.getD m 0⟩, ?_, ⟨m2, hh, rfl⟩, rfl, rfl⟩
  unfold sub
  rw [m1]
  simp only [M.ok_bind, h.access m (by have := m2.2.1; omega)]

/-- the new ranges -/
theorem split_spec {α : Type} (std : StdLib) (key : α → Nat) (wrap : SR → α) (h : u.Rep v) {lo hi pos : Nat}
    (hl : lo ≤ pos) (hp : pos ≤ hi) (hh : hi < v.length) {q : List α} (hq : IsHeap key q) :
    ∃ (q1 q' : List α) (news : List SR), pushLeft std key wrap u lo pos q = .ok q1 ∧ pushRight std key wrap u pos hi q1 = .ok q' ∧
      IsHeap key q' ∧ q'.Perm (news.map wrap ++ q) ∧ (∀ s ∈ news, s.WF v) ∧
      (List.range' lo (hi + 1 - lo)).Perm (pos :: news.flatMap SR.cover) := by
  have hlen := h.len
  have hcov : (List.range' lo (hi + 1 - lo)).Perm (pos :: (List.range' lo (pos - lo) ++ List.range' (pos + 1) (hi - pos))) := by
    have e : List.range' lo (hi + 1 - lo) = List.range' lo (pos - lo) ++ pos :: List.range' (pos + 1) (hi - pos) := by
      rw [show hi + 1 - lo = (pos - lo) + (hi - pos + 1) by omega, ← List.range'_append_1, List.range'_succ,
        show lo + (pos - lo) = pos by omega]
    rw [e]
    exact List.perm_middle
  obtain ⟨q1, nl, l1, l2, l3, l4, l5⟩ : ∃ (q1 : List α) (nl : List SR), pushLeft std key wrap u lo pos q = .ok q1 ∧ IsHeap key q1 ∧
      q1.Perm (nl.map wrap ++ q) ∧ (∀ s ∈ nl, SR.WF v s) ∧ nl.flatMap SR.cover = List.range' lo (pos - lo) := by
    unfold pushLeft
    split
    · rename_i hc
      obtain ⟨s, s1, s2, s3, s4⟩ := sub_spec h (lo := lo) (hi := pos - 1) (by omega) (by omega)
      rw [s1]
      refine ⟨_, [s], rfl, (Heap.push_spec std hq _).2, (Heap.push_spec std hq _).1, by simpa using s2, ?_⟩
      simp only [List.flatMap_cons, List.flatMap_nil, List.append_nil, SR.cover, s3, s4]
      rw [show pos - 1 + 1 - lo = pos - lo by omega]
    · rename_i hc
      refine ⟨q, [], rfl, hq, List.Perm.refl _, by simp, ?_⟩
      rw [show pos - lo = 0 by omega]
      rfl
  obtain ⟨q', nr, r1, r2, r3, r4, r5⟩ : ∃ (q' : List α) (nr : List SR), pushRight std key wrap u pos hi q1 = .ok q' ∧ IsHeap key q' ∧
      q'.Perm (nr.map wrap ++ q1) ∧ (∀ s ∈ nr, SR.WF v s) ∧ nr.flatMap SR.cover = List.range' (pos + 1) (hi - pos) := by
    unfold pushRight
    rw [h.size]
    split
    · rename_i hc
      obtain ⟨s, s1, s2, s3, s4⟩ := sub_spec h (lo := pos + 1) (hi := hi) (by omega) (by omega)
      rw [s1]
      refine ⟨_, [s], rfl, (Heap.push_spec std l2 _).2, (Heap.push_spec std l2 _).1, by simpa using s2, ?_⟩
      simp only [List.flatMap_cons, List.flatMap_nil, List.append_nil, SR.cover, s3, s4]
      rw [show hi + 1 - (pos + 1) = hi - pos by omega]
    · rename_i hc
      refine ⟨q1, [], rfl, l2, List.Perm.refl _, by simp, ?_⟩
      rw [show hi - pos = 0 by omega]
      rfl
  refine ⟨q1, q', nl ++ nr, l1, r1, r2, ?_, ?_, ?_⟩
  · refine r3.trans ?_
    rw [List.map_append, List.append_assoc]
    refine (List.Perm.append_left _ l3).trans ?_
    rw [← List.append_assoc, ← List.append_assoc]
    exact List.perm_append_comm.append_right _
  · intro s hs
    rcases List.mem_append.mp hs with hs | hs
    · exact l4 s hs
    · exact r4 s hs
  · rw [List.flatMap_append, l5, r5]
    exact hcov

/-- one iteration of the loop of `topk`: the first range is split -/
theorem step_spec (std : StdLib) (h : u.Rep v) {m : SR} {q : List SR} (hq : IsHeap SR.val (m :: q))
    (hwf : ∀ s ∈ m :: q, s.WF v) :
    ∃ q1 q2 q3, Heap.pop std SR.val (m :: q) = .ok q1 ∧ pushLeft std SR.val id u m.lo m.pos q1 = .ok q2 ∧
      pushRight std SR.val id u m.pos m.hi q2 = .ok q3 ∧ IsHeap SR.val q3 ∧ (∀ s ∈ q3, s.WF v) ∧
      ((m :: q).flatMap SR.cover).Perm (m.pos :: q3.flatMap SR.cover) := by
  obtain ⟨q1, p1, p2, p3⟩ := Heap.pop_spec std (Heap.IsHeap.isBelow hq)
  have hm := hwf m (List.mem_cons_self ..)
  obtain ⟨q2, q3, news, s1, s2, s3, s4, s5, s6⟩ := split_spec std SR.val id h hm.min.1 hm.min.2.1 hm.hi p3
  rw [List.map_id] at s4
  refine ⟨q1, q2, q3, p1, s1, s2, s3, ?_, ?_⟩
  · intro s hs
    rcases List.mem_append.mp (s4.mem_iff.mp hs) with hs | hs
    · exact s5 s hs
    · exact hwf s (List.mem_cons_of_mem _ (p2.mem_iff.mp hs))
  · rw [List.flatMap_cons]
    have h1 : (q3.flatMap SR.cover).Perm (news.flatMap SR.cover ++ q.flatMap SR.cover) := by
      refine (List.Perm.flatMap_right _ s4).trans ?_
      rw [List.flatMap_append]
      exact List.Perm.append_left _ (List.Perm.flatMap_right _ p2)
    refine (List.Perm.append_right _ (show m.cover.Perm _ from s6)).trans ?_
    rw [List.cons_append]
    exact (h1.symm).cons _

end UL
end AC
