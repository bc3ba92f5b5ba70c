/-!
# Specification of the blocks of terms

The terms are numbered from 1; `lists` are their posting lists, one after the other. A block is a range of terms; it is described by
the documents that have one of its terms, each with these terms.
-/
namespace AC.Spec

/-- the posting list of term `t` contains `d` -/
def Posted (lists : List (List Nat)) (t d : Nat) : Prop := 1 ≤ t ∧ ∃ l, lists[t - 1]? = some l ∧ d ∈ l

/-- the number of postings of the terms after `lo` up to `hi` -/
def postingsIn (lists : List (List Nat)) (lo hi : Nat) : Nat := (((lists.take hi).drop lo).map List.length).sum

/-- the documents of the terms after `lo` up to `hi`, in increasing order, each with its terms among these, in increasing order -/
structure IsBlock (lists : List (List Nat)) (lo hi : Nat) (rows : List (Nat × List Nat)) : Prop where
  docs : (rows.map (·.1)).Pairwise (· < ·)
  complete : ∀ t d, lo < t → t ≤ hi → Posted lists t d → ∃ ts, (d, ts) ∈ rows
  nonempty : ∀ r ∈ rows, r.2 ≠ []
  terms : ∀ r ∈ rows, r.2.Pairwise (· < ·)
  exact : ∀ r ∈ rows, ∀ t, t ∈ r.2 ↔ lo < t ∧ t ≤ hi ∧ Posted lists t r.1

/-- `bounds` cut the terms into blocks filled one after the other: a block is closed as soon as it has at least `m` postings, or
after the last term -/
structure IsCut (lists : List (List Nat)) (m : Nat) (bounds : List Nat) : Prop where
  incr : (0 :: bounds).Pairwise (· < ·)
  last : bounds.getLast? = some lists.length
  full : ∀ (j lo hi : Nat), (0 :: bounds)[j]? = some lo → bounds[j]? = some hi → m ≤ postingsIn lists lo hi ∨ hi = lists.length
  least : ∀ (j lo hi : Nat), (0 :: bounds)[j]? = some lo → bounds[j]? = some hi → ∀ x, lo < x → x < hi → postingsIn lists lo x < m


/-- `d` is the least document of the terms after `lo` up to `hi` -/
def IsFirstDoc (lists : List (List Nat)) (lo hi d : Nat) : Prop :=
  (∃ t, lo < t ∧ t ≤ hi ∧ Posted lists t d) ∧ ∀ t e, lo < t → t ≤ hi → Posted lists t e → d ≤ e

/-- all the terms are in one of the blocks, and `d` is the first document of this block -/
def FirstOfOne (lists : List (List Nat)) (bounds : List Nat) (ids : List Nat) (d : Nat) : Prop :=
  ∃ (j lo hi : Nat), (0 :: bounds)[j]? = some lo ∧ bounds[j]? = some hi ∧ (∀ t ∈ ids, lo < t ∧ t ≤ hi) ∧ IsFirstDoc lists lo hi d

/-- `d` has a term among those after `lo` up to `hi`, in the range from `b` to `e` -/
def InRange (lists : List (List Nat)) (lo hi b e d : Nat) : Prop := ∃ t, lo < t ∧ t ≤ hi ∧ b ≤ t ∧ t ≤ e ∧ Posted lists t d

/-- the blocks visited for the terms from `b` to `e`, by their bounds: that of `b`, and those of the terms after `b` and before `e` -/
def visitedBlocks (bounds : List Nat) (b e : Nat) : List (Nat × Nat) :=
  ((0 :: bounds).zip bounds).filter (fun x => decide (b ≤ x.2 ∧ (x.1 < b ∨ x.1 + 1 < e)))

end AC.Spec
