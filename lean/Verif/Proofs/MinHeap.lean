import Verif.Model.MinHeap
/-!
# The heap
-/
namespace AC
variable {α : Type} {key : α → Nat}

theorem IsHeap.root_le {q : List α} (h : IsHeap key q) : ∀ (i : Nat) (hi : i < q.length), key (q[0]'(by omega)) ≤ key q[i] := by
  intro i
  induction i using Nat.strongRecOn with
  | ind i ih =>
      intro hi
      by_cases h0 : i = 0
      · subst h0; exact Nat.le_refl _
      · have h1 := h i hi (by omega)
        have h2 := ih ((i - 1) / 2) (by omega) (by omega)
        omega

theorem IsHeap.top_le {x : α} {q : List α} (h : IsHeap key (x :: q)) : ∀ y ∈ x :: q, key x ≤ key y := by
  intro y hy
  obtain ⟨i, hi, rfl⟩ := List.getElem_of_mem hy
  exact h.root_le i hi

theorem IsHeap.nil : IsHeap key ([] : List α) := by intro i hi; simp at hi

theorem IsHeap.below {x y : α} {q : List α} (h : IsHeap key (x :: q)) : IsHeapBelow key (y :: q) := by
  intro i hi h2
  have := h i (by simpa using hi) (by omega)
  obtain ⟨j, rfl⟩ : ∃ j, i = j + 1 := ⟨i - 1, by omega⟩
  obtain ⟨k, hk⟩ : ∃ k, (j + 1 - 1) / 2 = k + 1 := ⟨(j + 1 - 1) / 2 - 1, by omega⟩
  simp only [hk, List.getElem_cons_succ] at this ⊢
  exact this

namespace Heap

/-- a heap but for the element at `pos`, which may be greater than its children -/
structure But (key : α → Nat) (q : List α) (pos : Nat) : Prop where
  other : ∀ i (hi : i < q.length), 0 < i → (i - 1) / 2 ≠ pos → key (q[(i - 1) / 2]'(by omega)) ≤ key q[i]
  skip : ∀ i (hi : i < q.length), 0 < i → ∀ hp : (i - 1) / 2 = pos, 0 < pos → key (q[(pos - 1) / 2]'(by omega)) ≤ key q[i]

theorem child_spec {q : List α} {pos : Nat} (h : 2 * pos + 1 < q.length) :
    ∃ i, child key q pos = .ok i ∧ ∃ hi : i < q.length, (i = 2 * pos + 1 ∨ i = 2 * pos + 2) ∧
      ∀ j (hj : j < q.length), (j = 2 * pos + 1 ∨ j = 2 * pos + 2) → key q[i] ≤ key q[j] := by
  unfold child
  simp only
  split
  · rename_i h2
    rw [rd_ok h, rd_ok h2]
    simp only [M.ok_bind]
    refine ⟨_, rfl, ?_⟩
    split
    · rename_i hk
      refine ⟨by omega, Or.inr rfl, ?_⟩
      intro j hj hj2
      rcases hj2 with rfl | rfl
      · exact Nat.le_of_lt hk
      · exact Nat.le_refl _
    · rename_i hk
      refine ⟨by omega, Or.inl rfl, ?_⟩
      intro j hj hj2
      rcases hj2 with rfl | rfl
      · exact Nat.le_refl _
      · exact Nat.le_of_not_gt hk
  · rename_i h2
    refine ⟨_, rfl, h, Or.inl rfl, ?_⟩
    intro j hj hj2
    rcases hj2 with rfl | rfl
    · exact Nat.le_refl _
    · omega

theorem sink_spec : ∀ (fuel pos : Nat) (q : List α), But key q pos → q.length - pos < fuel →
    ∃ q', sink key fuel pos q = .ok q' ∧ q'.Perm q ∧ IsHeap key q' := by
  intro fuel
  induction fuel with
  | zero => intro pos q _ h; omega
  | succ fuel ih =>
      intro pos q h hf
      unfold sink
      split
      · rename_i hlt
        obtain ⟨i, e1, hi, e2, e3⟩ := child_spec (key := key) hlt
        have hp : pos < q.length := by omega
        rw [e1]
        simp only [M.ok_bind]
        rw [rd_ok hp, rd_ok hi]
        simp only [M.ok_bind]
        split
        · rename_i hk
          have hi2 : i < (q.set pos q[i]).length := by simpa using hi
          rw [wr_ok hp]
          simp only [M.ok_bind]
          rw [wr_ok hi2]
          simp only [M.ok_bind]
          have hperm : ((q.set pos q[i]).set i q[pos]).Perm q := List.set_set_perm hp hi
          have hip : pos < i := by omega
          -- the elements after the swap
          have get : ∀ j (hj : j < q.length), ((q.set pos q[i]).set i q[pos])[j]'(by simpa using hj) =
              if i = j then q[pos] else if pos = j then q[i] else q[j] := by
            intro j hj
            rw [List.getElem_set]
            split
            · rfl
            · rw [List.getElem_set]
          obtain ⟨q', f1, f2, f3⟩ := ih i ((q.set pos q[i]).set i q[pos]) (by
            constructor
            · intro j hj j0 hne
              simp only [List.length_set] at hj
              rw [get j hj, get ((j - 1) / 2) (by omega)]
              rw [if_neg (fun hc => hne hc.symm)]
              by_cases hji : i = j
              · subst hji
                rw [if_pos rfl, if_pos (by omega)]
                omega
              · rw [if_neg hji]
                by_cases hpar : pos = (j - 1) / 2
                · rw [if_pos hpar]
                  rw [if_neg (by omega)]
                  exact e3 j hj (by omega)
                · rw [if_neg hpar]
                  by_cases hpj : pos = j
                  · rw [if_pos hpj]
                    have := h.skip i hi (by omega) (by omega) (by omega)
                    subst hpj; exact this
                  · rw [if_neg hpj]
                    exact h.other j hj j0 (by omega)
            · intro j hj j0 hj2 _
              simp only [List.length_set] at hj
              rw [get j hj, get ((i - 1) / 2) (by omega)]
              rw [if_neg (by omega), if_pos (by omega), if_neg (by omega), if_neg (by omega)]
              have := h.other j hj j0 (by omega)
              simp only [hj2] at this
              exact this) (by simp only [List.length_set]; omega)
          exact ⟨q', f1, f2.trans hperm, f3⟩
        · rename_i hk
          refine ⟨q, rfl, List.Perm.refl _, ?_⟩
          intro j hj j0
          by_cases hpar : (j - 1) / 2 = pos
          · have := e3 j hj (by omega)
            simp only [hpar]; omega
          · exact h.other j hj j0 hpar
      · rename_i hlt
        refine ⟨q, rfl, List.Perm.refl _, ?_⟩
        intro j hj j0
        exact h.other j hj j0 (by omega)

theorem heapify_spec {q : List α} (h : IsHeapBelow key q) : ∃ q', heapify key q = .ok q' ∧ q'.Perm q ∧ IsHeap key q' := by
  unfold heapify
  apply sink_spec
  · constructor
    · intro i hi h0 hne; exact h i hi (by omega)
    · intro i hi h0 h1 h2; omega
  · omega

theorem push_spec (std : StdLib) {q : List α} (h : IsHeap key q) (x : α) :
    (push std key q x).Perm (x :: q) ∧ IsHeap key (push std key q x) :=
  ⟨(std.push_perm key _).trans (List.perm_append_singleton x q), std.push_spec key q x h⟩

theorem pop_spec (std : StdLib) {x : α} {q : List α} (h : IsHeapBelow key (x :: q)) :
    ∃ q', pop std key (x :: q) = .ok q' ∧ q'.Perm q ∧ IsHeap key q' := by
  obtain ⟨r, e1, e2, e3⟩ := std.pop_spec key x q h
  refine ⟨r, ?_, e2, e3⟩
  unfold pop
  simp only [e1, List.dropLast_concat]

theorem makeHeap_spec (std : StdLib) (q : List α) : (makeHeap std key q).Perm q ∧ IsHeap key (makeHeap std key q) :=
  ⟨std.make_perm key q, std.make_spec key q⟩

theorem IsHeap.isBelow {q : List α} (h : IsHeap key q) : IsHeapBelow key q := fun i hi h2 => h i hi (by omega)

/-- popping and then heapifying -/
theorem pop_heapify (std : StdLib) {x : α} {q : List α} (h : IsHeapBelow key (x :: q)) :
    ∃ q1 q', pop std key (x :: q) = .ok q1 ∧ heapify key q1 = .ok q' ∧ q'.Perm q ∧ IsHeap key q' := by
  obtain ⟨q1, e1, e2, e3⟩ := pop_spec std h
  obtain ⟨q', f1, f2, f3⟩ := heapify_spec (IsHeap.isBelow e3)
  exact ⟨q1, q', e1, f1, f2.trans e2, f3⟩

end Heap
end AC
