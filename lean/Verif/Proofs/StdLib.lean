import Verif.Model.StdLib
/-!
# A standard library exists: everything by sorting
-/
namespace AC

def keyInsert {α : Type} (key : α → Nat) (x : α) : List α → List α
  | [] => [x]
  | y :: l => if key x ≤ key y then x :: y :: l else y :: keyInsert key x l

theorem keyInsert_perm {α : Type} (key : α → Nat) (x : α) (l : List α) : (keyInsert key x l).Perm (x :: l) := by
  induction l with
  | nil => exact List.Perm.refl _
  | cons y l ih =>
      unfold keyInsert
      split
      · exact List.Perm.refl _
      · exact (ih.cons y).trans (List.Perm.swap x y l)

theorem keyInsert_sorted {α : Type} (key : α → Nat) (x : α) (l : List α) (h : l.Pairwise (fun a b => key a ≤ key b)) :
    (keyInsert key x l).Pairwise (fun a b => key a ≤ key b) := by
  induction l with
  | nil => simp [keyInsert]
  | cons y l ih =>
      rw [List.pairwise_cons] at h
      unfold keyInsert
      split
      · rename_i hk
        refine List.pairwise_cons.mpr ⟨?_, List.pairwise_cons.mpr h⟩
        intro z hz
        rcases List.mem_cons.mp hz with rfl | hz
        · exact hk
        · have := h.1 z hz; omega
      · refine List.pairwise_cons.mpr ⟨?_, ih h.2⟩
        intro z hz
        rcases List.mem_cons.mp ((keyInsert_perm key x l).mem_iff.mp hz) with rfl | hz
        · omega
        · exact h.1 z hz

def keySort {α : Type} (key : α → Nat) (l : List α) : List α := l.foldr (keyInsert key) []

theorem keySort_perm {α : Type} (key : α → Nat) (l : List α) : (keySort key l).Perm l := by
  induction l with
  | nil => exact List.Perm.refl _
  | cons x l ih => exact (keyInsert_perm key x _).trans (ih.cons x)

theorem keySort_sorted {α : Type} (key : α → Nat) (l : List α) : (keySort key l).Pairwise (fun a b => key a ≤ key b) := by
  induction l with
  | nil => exact List.Pairwise.nil
  | cons x l ih => exact keyInsert_sorted key x _ ih

theorem sorted_heap {α : Type} (key : α → Nat) (l : List α) (h : l.Pairwise (fun a b => key a ≤ key b)) : IsHeap key l := by
  intro i hi h0
  exact List.pairwise_iff_getElem.mp h _ _ _ hi (by omega)

theorem takeWhile_le {x : Nat} : ∀ (l : List Nat), l.Pairwise (· ≤ ·) →
    (l.takeWhile (· ≤ x)).length ≤ l.length ∧ ∀ i (hi : i < l.length), l[i] ≤ x ↔ i < (l.takeWhile (· ≤ x)).length := by
  intro l
  induction l with
  | nil => intro _; exact ⟨Nat.le_refl _, fun i hi => absurd hi (by simp)⟩
  | cons y l ih =>
      intro h
      rw [List.pairwise_cons] at h
      obtain ⟨h1, h2⟩ := ih h.2
      by_cases hy : y ≤ x
      · rw [List.takeWhile_cons_of_pos (by simpa using hy)]
        refine ⟨by simp only [List.length_cons]; omega, ?_⟩
        intro i hi
        cases i with
        | zero => simp [hy]
        | succ i =>
            have := h2 i (by simpa using hi)
            simp only [List.getElem_cons_succ, List.length_cons]
            omega
      · rw [List.takeWhile_cons_of_neg (by simpa using hy)]
        refine ⟨Nat.zero_le _, ?_⟩
        intro i hi
        simp only [List.length_nil, Nat.not_lt_zero, iff_false]
        cases i with
        | zero => simpa using hy
        | succ i =>
            have := h.1 _ (List.getElem_mem (by simpa using hi : i < l.length))
            simp only [List.getElem_cons_succ]
            omega

/-- a standard library -/
def StdLib.bySorting : StdLib where
  sort := keySort
  sort_perm := keySort_perm
  sort_sorted := keySort_sorted
  binarySearch := fun l x => decide (x ∈ l)
  binarySearch_spec := by intro l x _; simp
  upperBound := fun l x => (l.takeWhile (· ≤ x)).length
  upperBound_spec := fun l _ h => takeWhile_le l h
  makeHeap := keySort
  make_perm := keySort_perm
  make_spec := fun key q => sorted_heap key _ (keySort_sorted key q)
  pushHeap := keySort
  push_perm := keySort_perm
  push_spec := fun key q x _ => sorted_heap key _ (keySort_sorted key _)
  popHeap := fun key q => match q with
    | [] => []
    | x :: q => keySort key q ++ [x]
  pop_spec := fun key x q _ => ⟨keySort key q, rfl, keySort_perm key q, sorted_heap key _ (keySort_sorted key q)⟩

/-! Another one, which puts elements with equal keys in the opposite order -/

/-- sorting, elements with equal keys in the opposite order -/
def keySortRev {α : Type} (key : α → Nat) (l : List α) : List α := keySort key l.reverse

theorem keySortRev_perm {α : Type} (key : α → Nat) (l : List α) : (keySortRev key l).Perm l := (keySort_perm key _).trans (List.reverse_perm l)

theorem keySortRev_sorted {α : Type} (key : α → Nat) (l : List α) : (keySortRev key l).Pairwise (fun a b => key a ≤ key b) := keySort_sorted key _

/-- another standard library -/
def StdLib.bySortingRev : StdLib where
  sort := keySortRev
  sort_perm := keySortRev_perm
  sort_sorted := keySortRev_sorted
  binarySearch := fun l x => decide (x ∈ l)
  binarySearch_spec := by intro l x _; simp
  upperBound := fun l x => (l.takeWhile (· ≤ x)).length
  upperBound_spec := fun l _ h => takeWhile_le l h
  makeHeap := keySortRev
  make_perm := keySortRev_perm
  make_spec := fun key q => sorted_heap key _ (keySortRev_sorted key q)
  pushHeap := keySortRev
  push_perm := keySortRev_perm
  push_spec := fun key q x _ => sorted_heap key _ (keySortRev_sorted key _)
  popHeap := fun key q => match q with
    | [] => []
    | x :: q => keySortRev key q ++ [x]
  pop_spec := fun key x q _ => ⟨keySortRev key q, rfl, keySortRev_perm key q, sorted_heap key _ (keySortRev_sorted key q)⟩

end AC
