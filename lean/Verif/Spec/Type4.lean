import Verif.Spec.Actual
/-!
# What conjunctive queries with index type 4 really return

Index type 4 cuts the dictionary into blocks of consecutive terms and looks at whole blocks. What it returns depends on the blocks.
-/
namespace AC.Spec

/-- the number of pairs of one of the terms `ts` and a completion that has it -/
def postings (C : Coll) (ts : List Str) : Nat := (ts.map (fun t => (C.filter (fun r => decide (t ∈ r.2))).length)).sum

/-- `B` are the terms of the collection in order, cut into blocks: a block ends as soon as it has `m` postings, or with the last term -/
structure IsBlocks (C : Coll) (m : Nat) (B : List (List Str)) : Prop where
  sorted : B.flatten.Pairwise (· < ·)
  terms : ∀ t, t ∈ B.flatten ↔ IsTerm C t
  nonempty : ∀ b ∈ B, b ≠ []
  full : ∀ b ∈ B.dropLast, m ≤ postings C b
  least : ∀ b ∈ B, b.dropLast = [] ∨ postings C b.dropLast < m

/-- the blocks that are looked at for an incomplete term: those that have the first of the terms that are found for it, or one that is
not the last -/
def Looked (C : Coll) (last : Str) (b : List Str) : Prop :=
  ∃ x ∈ b, IsTerm C x ∧ Reaches C last x ∧ (FirstReached C last x ∨ ∃ y, IsTerm C y ∧ Reaches C last y ∧ x < y)

/-- the completion has a term of the block that is found for the incomplete term -/
def FoundIn (C : Coll) (last : Str) (b : List Str) (c : List Str) : Prop := ∃ x ∈ c, x ∈ b ∧ Reaches C last x

open Classical in
/-- the number of the blocks that are looked at in which the completion is found -/
noncomputable def copies (C : Coll) (B : List (List Str)) (last : Str) (c : List Str) : Nat :=
  (B.filter (fun b => decide (Looked C last b ∧ FoundIn C last b c))).length

/-- the complete terms that are known are all in one block, and the completion is the first that has a term of this block -/
def Skipped (C : Coll) (B : List (List Str)) (complete : List Str) (r : Nat × List Str) : Prop :=
  ∃ b ∈ B, (∀ t ∈ complete, IsTerm C t → t ∈ b) ∧ (∃ x ∈ r.2, x ∈ b) ∧ ∀ r' ∈ C, (∃ x ∈ r'.2, x ∈ b) → r.1 ≤ r'.1

/-- The completions, in the order of the document ids, whose first `k` are returned. Without complete terms that are known, every one
occurs once for each of the blocks in which it is found. With such terms, the completion must have all of them, not be skipped, and be
found in one of the blocks; whether it is in the result when it also has other terms of another of the blocks is left open here. -/
structure Result4 (C : Coll) (B : List (List Str)) (complete : List Str) (last : Str) (S : Coll) : Prop where
  mem : ∀ r ∈ S, r ∈ C
  union : (∀ t ∈ complete, ¬ IsTerm C t) → S.Pairwise (fun a b => a.1 ≤ b.1) ∧ ∀ r ∈ C, S.count r = copies C B last r.2
  inter : (∃ t ∈ complete, IsTerm C t) → S.Pairwise (fun a b => a.1 < b.1) ∧
    (∀ r ∈ S, (∀ t ∈ complete, IsTerm C t → t ∈ r.2) ∧ ¬ Skipped C B complete r ∧ ∃ b ∈ B, Looked C last b ∧ FoundIn C last b r.2) ∧
    ∀ r ∈ C, (∀ t ∈ complete, IsTerm C t → t ∈ r.2) → ¬ Skipped C B complete r → (∃ b ∈ B, Looked C last b ∧ FoundIn C last b r.2) →
      (∀ b ∈ B, Looked C last b → (∃ x ∈ r.2, x ∈ b) → FoundIn C last b r.2) → r ∈ S

/-- What type 4 needs besides a valid collection: as type 3, and the two largest document ids are not used -/
structure Suits4 (C : Coll) : Prop extends Suits3 C where
  ids : ∀ r ∈ C, r.1 < 2 ^ 32 - 2

end AC.Spec
