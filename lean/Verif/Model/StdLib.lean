/-!
# The algorithms of the C++ standard library used by the code

The library is not part of the repository: it is a parameter of the model, and every theorem holds for every library that obeys
the laws below. The comparators of the code always compare a number computed from the elements, so that they are given here by
that number (`key`). The laws are those of the C++ standard ([alg.sorting], [alg.binary.search], [alg.heap.operations]), with
one exception documented at `pop_spec`.
-/
namespace AC

/-- `[first, last)` is a heap for the comparator `key(l) > key(r)`: no parent has a greater key than a child
([alg.heap.operations]: `comp(a[(i - 1) / 2], a[i])` is false for all `0 < i < N`) -/
def IsHeap {α : Type} (key : α → Nat) (q : List α) : Prop :=
  ∀ i (hi : i < q.length), 0 < i → key (q[(i - 1) / 2]'(by omega)) ≤ key q[i]

/-- a heap, but for the first element, which may have been modified -/
def IsHeapBelow {α : Type} (key : α → Nat) (q : List α) : Prop :=
  ∀ i (hi : i < q.length), 2 < i → key (q[(i - 1) / 2]'(by omega)) ≤ key q[i]

/-- A C++ standard library. -/
structure StdLib where
  /-- `std::sort` with the comparator `key(l) < key(r)`: in which order elements with equal keys come is not specified -/
  sort : {α : Type} → (α → Nat) → List α → List α
  sort_perm : ∀ {α : Type} (key : α → Nat) (l : List α), (sort key l).Perm l
  sort_sorted : ∀ {α : Type} (key : α → Nat) (l : List α), (sort key l).Pairwise (fun a b => key a ≤ key b)
  /-- `std::binary_search` on a sorted range -/
  binarySearch : List Nat → Nat → Bool
  binarySearch_spec : ∀ (l : List Nat) (x : Nat), l.Pairwise (· ≤ ·) → (binarySearch l x = true ↔ x ∈ l)
  /-- `std::upper_bound` on a sorted range: how many elements come before the first that is greater than the value -/
  upperBound : List Nat → Nat → Nat
  upperBound_spec : ∀ (l : List Nat) (x : Nat), l.Pairwise (· ≤ ·) →
    upperBound l x ≤ l.length ∧ ∀ i (hi : i < l.length), l[i] ≤ x ↔ i < upperBound l x
  /-- `std::make_heap` with the comparator `key(l) > key(r)` -/
  makeHeap : {α : Type} → (α → Nat) → List α → List α
  make_perm : ∀ {α : Type} (key : α → Nat) (q : List α), (makeHeap key q).Perm q
  make_spec : ∀ {α : Type} (key : α → Nat) (q : List α), IsHeap key (makeHeap key q)
  /-- `std::push_heap` with the comparator `key(l) > key(r)`, the last element being the new one -/
  pushHeap : {α : Type} → (α → Nat) → List α → List α
  push_perm : ∀ {α : Type} (key : α → Nat) (q : List α), (pushHeap key q).Perm q
  push_spec : ∀ {α : Type} (key : α → Nat) (q : List α) (x : α), IsHeap key q → IsHeap key (pushHeap key (q ++ [x]))
  /-- `std::pop_heap` with the comparator `key(l) > key(r)`: the first element goes to the end, the others form a heap -/
  popHeap : {α : Type} → (α → Nat) → List α → List α
  /-- The C++ standard gives this guarantee when the whole range is a heap. `heap_topk` and `minimal_docids::topk` call
  `pop_heap` after having modified the first element; this is harmless with the implementations of the library in use, which
  move the first element away without comparing it. The law is about those. -/
  pop_spec : ∀ {α : Type} (key : α → Nat) (x : α) (q : List α), IsHeapBelow key (x :: q) →
    ∃ r, popHeap key (x :: q) = r ++ [x] ∧ r.Perm q ∧ IsHeap key r

/-- The heap functions see of the elements nothing but their keys: when the elements are replaced by others with the same keys, these are moved to
the same places. A function template of the C++ library, given the comparator only, cannot do otherwise. This is not among the laws above: it is
assumed only where two runs over different elements are compared. -/
structure StdLib.ByKeys (std : StdLib) : Prop where
  make : ∀ {α β : Type} (key : β → Nat) (f : α → β) (q : List α), std.makeHeap key (q.map f) = (std.makeHeap (fun a => key (f a)) q).map f
  pop : ∀ {α β : Type} (key : β → Nat) (f : α → β) (q : List α), std.popHeap key (q.map f) = (std.popHeap (fun a => key (f a)) q).map f

end AC
