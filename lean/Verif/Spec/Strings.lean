/-!
# Strings and constants of the specification
-/
namespace AC

/-- A byte string. Elements are byte values. -/
abbrev Str := List Nat

/-- Strings as they occur in dictionaries: no NUL byte, all elements are bytes. -/
def IsText (s : Str) : Prop := ∀ c ∈ s, 0 < c ∧ c < 256

instance (s : Str) : Decidable (IsText s) := by unfold IsText; infer_instance

/-- A sequence of term ids. -/
abbrev Ids := List Nat

/-- Strictly increasing in the lexicographic order. -/
def StrictSorted {α : Type} [LT α] (l : List α) : Prop := l.Pairwise (· < ·)

instance {α : Type} [LT α] [DecidableRel (α := α) (· < ·)] (l : List α) : Decidable (StrictSorted l) := by
  unfold StrictSorted; infer_instance

/-- Lists of terms a dictionary can be built from: strictly sorted, NUL-free byte strings of at most 128 bytes; term ids are 32-bit
numbers, of which one is reserved; positions in the text of the dictionary are 32-bit numbers, and a term takes at most two
bytes more than its length. -/
structure ValidTerms (L : List Str) : Prop where
  sorted : StrictSorted L
  text : ∀ s ∈ L, IsText s
  len : ∀ s ∈ L, s.length ≤ 128
  count : L.length < 2 ^ 32 - 1
  room : (L.map (fun s => s.length + 2)).sum < 2 ^ 32

theorem sum_take_le (L : List Str) (f : Str → Nat) (n : Nat) : ((L.take n).map f).sum ≤ (L.map f).sum := by
  have h : (L.map f).sum = ((L.take n).map f).sum + ((L.drop n).map f).sum := by
    rw [← List.sum_append_nat, ← List.map_append, List.take_append_drop]
  omega

instance (L : List Str) : Decidable (ValidTerms L) :=
  decidable_of_iff (StrictSorted L ∧ (∀ s ∈ L, IsText s) ∧ (∀ s ∈ L, s.length ≤ 128) ∧ L.length < 2 ^ 32 - 1 ∧
      (L.map (fun s => s.length + 2)).sum < 2 ^ 32)
    ⟨fun ⟨a, b, c, d, e⟩ => ⟨a, b, c, d, e⟩, fun ⟨a, b, c, d, e⟩ => ⟨a, b, c, d, e⟩⟩

/-- Lists of completions (sequences of term ids) an index can be built from: strictly sorted; ids are positive 32-bit
numbers, of which the largest is reserved; at most 63 terms. -/
structure ValidIds (L : List Ids) : Prop where
  sorted : StrictSorted L
  elems : ∀ s ∈ L, ∀ x ∈ s, 0 < x ∧ x < 2 ^ 32 - 1
  len : ∀ s ∈ L, s.length < 64
  count : L.length < 2 ^ 32 - 1

instance (L : List Ids) : Decidable (ValidIds L) :=
  decidable_of_iff (StrictSorted L ∧ (∀ s ∈ L, ∀ x ∈ s, 0 < x ∧ x < 2 ^ 32 - 1) ∧ (∀ s ∈ L, s.length < 64) ∧
      L.length < 2 ^ 32 - 1)
    ⟨fun ⟨a, b, c, d⟩ => ⟨a, b, c, d⟩, fun ⟨a, b, c, d⟩ => ⟨a, b, c, d⟩⟩

/-- The completion `s` starts with `pfx` followed by a term between `b` and `e`. -/
def MatchIds (pfx : Ids) (b e : Nat) (s : Ids) : Prop := ∃ x, b ≤ x ∧ x ≤ e ∧ (pfx ++ [x]) <+: s

end AC
