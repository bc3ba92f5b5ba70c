import Verif.Proofs.MinHeap
import Verif.Proofs.StdLib
/-!
# C28: the heap keeps a minimum on top
-/
namespace AC.Props
open AC
variable {α : Type}

/-- what a user does with a heap; the top may be changed in place if the heap is then restored with `heapify`,
or with `pop` followed by `heapify` -/
inductive HeapOp (α : Type) where
  | push (x : α)
  | pop
  | changeTop (y : α)
  | changeTopAndPop (y : α)
  | rebuild (xs : List α)
  | clear

/-- the calls of include/min_heap.hpp made by an operation -/
def HeapOp.run (std : StdLib) (key : α → Nat) (q : List α) : HeapOp α → M (List α)
  | .push x => .ok (Heap.push std key q x)
  | .pop => Heap.pop std key q
  | .changeTop y => do
      let q ← wr q 0 y
      Heap.heapify key q
  | .changeTopAndPop y => do
      let q ← wr q 0 y
      let q ← Heap.pop std key q
      Heap.heapify key q
  | .rebuild xs => .ok (Heap.makeHeap std key xs)
  | .clear => .ok []

/-- all operations in turn, on a heap that starts empty -/
def HeapOp.runAll (std : StdLib) (key : α → Nat) : List α → List (HeapOp α) → M (List α)
  | q, [] => .ok q
  | q, op :: ops => do
      let q ← op.run std key q
      runAll std key q ops

/-- the same operation on a bag of elements: only elements with the least key may be removed -/
inductive HeapOp.Spec (key : α → Nat) : List α → HeapOp α → List α → Prop
  | push {s s' x} : s'.Perm (x :: s) → Spec key s (.push x) s'
  | pop {s s' m} : s.Perm (m :: s') → (∀ y ∈ s, key m ≤ key y) → Spec key s .pop s'
  | changeTop {s s' r m y} : s.Perm (m :: r) → (∀ y ∈ s, key m ≤ key y) → s'.Perm (y :: r) → Spec key s (.changeTop y) s'
  | changeTopAndPop {s s' m y} : s.Perm (m :: s') → (∀ y ∈ s, key m ≤ key y) → Spec key s (.changeTopAndPop y) s'
  | rebuild {s s' xs} : s'.Perm xs → Spec key s (.rebuild xs) s'
  | clear {s} : Spec key s .clear []

inductive HeapOp.SpecAll (key : α → Nat) : List α → List (HeapOp α) → List α → Prop
  | nil {s} : SpecAll key s [] s
  | cons {s s' s'' op ops} : HeapOp.Spec key s op s' → SpecAll key s' ops s'' → SpecAll key s (op :: ops) s''

/-- the number of elements after the operations; none if an element is taken from an empty heap -/
def HeapOp.count : Nat → List (HeapOp α) → Option Nat
  | n, [] => some n
  | n, .push _ :: ops => count (n + 1) ops
  | 0, .pop :: _ => none
  | n + 1, .pop :: ops => count n ops
  | 0, .changeTop _ :: _ => none
  | n + 1, .changeTop _ :: ops => count (n + 1) ops
  | 0, .changeTopAndPop _ :: _ => none
  | n + 1, .changeTopAndPop _ :: ops => count n ops
  | _, .rebuild xs :: ops => count xs.length ops
  | _, .clear :: ops => count 0 ops

private theorem runAll_spec (std : StdLib) (key : α → Nat) : ∀ (ops : List (HeapOp α)) (q : List α) (n : Nat),
    IsHeap key q → HeapOp.count q.length ops = some n →
    ∃ q', HeapOp.runAll std key q ops = .ok q' ∧ HeapOp.SpecAll key q ops q' ∧ q'.length = n ∧ IsHeap key q' := by
  intro ops
  induction ops with
  | nil =>
      intro q n h hn
      simp only [HeapOp.count, Option.some.injEq] at hn
      exact ⟨q, rfl, .nil, hn, h⟩
  | cons op ops ih =>
      intro q n h hn
      unfold HeapOp.runAll
      cases op with
      | push x =>
          obtain ⟨p1, p2⟩ := Heap.push_spec std h x
          simp only [HeapOp.run, M.ok_bind]
          simp only [HeapOp.count] at hn
          obtain ⟨q', e1, e2, e3, e4⟩ := ih _ n p2 (by rw [p1.length_eq]; exact hn)
          exact ⟨q', e1, .cons (.push p1) e2, e3, e4⟩
      | pop =>
          cases q with
          | nil => simp [HeapOp.count] at hn
          | cons x q =>
              obtain ⟨q1, p1, p2, p3⟩ := Heap.pop_spec std (x := x) (q := q) (Heap.IsHeap.isBelow h)
              simp only [HeapOp.run, p1, M.ok_bind]
              simp only [List.length_cons, HeapOp.count] at hn
              obtain ⟨q', e1, e2, e3, e4⟩ := ih _ n p3 (by rw [p2.length_eq]; exact hn)
              exact ⟨q', e1, .cons (.pop (p2.symm.cons x) h.top_le) e2, e3, e4⟩
      | changeTop y =>
          cases q with
          | nil => simp [HeapOp.count] at hn
          | cons x q =>
              obtain ⟨q1, p1, p2, p3⟩ := Heap.heapify_spec (h.below (y := y))
              simp only [HeapOp.run]
              rw [wr_ok (by simp)]
              simp only [M.ok_bind, List.set_cons_zero, p1]
              simp only [List.length_cons, HeapOp.count] at hn
              obtain ⟨q', e1, e2, e3, e4⟩ := ih _ n p3 (by rw [p2.length_eq]; exact hn)
              exact ⟨q', e1, .cons (.changeTop (List.Perm.refl _) h.top_le p2) e2, e3, e4⟩
      | changeTopAndPop y =>
          cases q with
          | nil => simp [HeapOp.count] at hn
          | cons x q =>
              obtain ⟨q0, q1, p0, p1, p2, p3⟩ := Heap.pop_heapify std (h.below (y := y))
              simp only [HeapOp.run]
              rw [wr_ok (by simp)]
              simp only [M.ok_bind, List.set_cons_zero, p0, p1]
              simp only [List.length_cons, HeapOp.count] at hn
              obtain ⟨q', e1, e2, e3, e4⟩ := ih _ n p3 (by rw [p2.length_eq]; exact hn)
              exact ⟨q', e1, .cons (.changeTopAndPop (p2.symm.cons x) h.top_le) e2, e3, e4⟩
      | rebuild xs =>
          obtain ⟨p1, p2⟩ := Heap.makeHeap_spec (key := key) std xs
          simp only [HeapOp.run, M.ok_bind]
          simp only [HeapOp.count] at hn
          obtain ⟨q', e1, e2, e3, e4⟩ := ih _ n p2 (by rw [p1.length_eq]; exact hn)
          exact ⟨q', e1, .cons (.rebuild p1) e2, e3, e4⟩
      | clear =>
          simp only [HeapOp.run, M.ok_bind]
          simp only [HeapOp.count] at hn
          obtain ⟨q', e1, e2, e3, e4⟩ := ih [] n IsHeap.nil (by simpa using hn)
          exact ⟨q', e1, .cons .clear e2, e3, e4⟩

/-- C28: after any operations that never take from an empty heap, the content is as specified, and if there is
something in the heap, then `top` is one of its elements and has the least key -/
theorem C28_heap (std : StdLib) (key : α → Nat) (ops : List (HeapOp α)) (n : Nat) (h : HeapOp.count 0 ops = some n) :
    ∃ q, HeapOp.runAll std key [] ops = .ok q ∧ HeapOp.SpecAll key [] ops q ∧ q.length = n ∧
      (0 < n → ∃ m, Heap.top q = .ok m ∧ m ∈ q ∧ ∀ y ∈ q, key m ≤ key y) := by
  obtain ⟨q, e1, e2, e3, e4⟩ := runAll_spec std key ops [] n IsHeap.nil h
  refine ⟨q, e1, e2, e3, ?_⟩
  intro hn
  cases q with
  | nil => simp at e3; omega
  | cons x q => exact ⟨x, rfl, List.mem_cons_self, e4.top_le⟩

/-- six operations are admissible and leave two elements -/
example : HeapOp.count 0 [.rebuild [5, 3, 9, 3], .changeTop 7, .push 1, .pop, .changeTopAndPop 8, HeapOp.pop] = some 2 := rfl

/-- with the library that sorts, the least of the two elements left is on top -/
example : (HeapOp.runAll StdLib.bySorting id []
    [.rebuild [5, 3, 9, 3], .changeTop 7, .push 1, .pop, .changeTopAndPop 8, .pop] >>= Heap.top) = .ok 7 := by decide +kernel

end AC.Props
