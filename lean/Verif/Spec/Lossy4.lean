import Verif.Spec.Lossy
import Verif.Spec.Type4
/-!
# What conjunctive queries with index type 4 return when the number of terms is a multiple of 17

As `Result4`, with the terms that the dictionary finds: complete terms count when they are kept (`KeptTerm`), and the terms found for the incomplete one
are those of `ReachesKept`. The blocks are cut from all terms, also the last 16.
-/
namespace AC.Spec

/-- the blocks that are looked at; see `Looked` -/
def LookedKept (C : Coll) (last : Str) (b : List Str) : Prop :=
  ∃ x ∈ b, IsTerm C x ∧ ReachesKept C last x ∧ (FirstReachedKept C last x ∨ ∃ y, IsTerm C y ∧ ReachesKept C last y ∧ x < y)

/-- the completion has a term of the block that is found for the incomplete term -/
def FoundInKept (C : Coll) (last : Str) (b : List Str) (c : List Str) : Prop := ∃ x ∈ c, x ∈ b ∧ ReachesKept C last x

open Classical in
/-- the number of the blocks that are looked at in which the completion is found -/
noncomputable def copiesKept (C : Coll) (B : List (List Str)) (last : Str) (c : List Str) : Nat :=
  (B.filter (fun b => decide (LookedKept C last b ∧ FoundInKept C last b c))).length

/-- the complete terms that are kept are all in one block, and the completion is the first that has a term of this block -/
def SkippedKept (C : Coll) (B : List (List Str)) (complete : List Str) (r : Nat × List Str) : Prop :=
  ∃ b ∈ B, (∀ t ∈ complete, KeptTerm C t → t ∈ b) ∧ (∃ x ∈ r.2, x ∈ b) ∧ ∀ r' ∈ C, (∃ x ∈ r'.2, x ∈ b) → r.1 ≤ r'.1

/-- the completions, in the order of the document ids, whose first `k` are searched for; see `Result4` -/
structure Result4Kept (C : Coll) (B : List (List Str)) (complete : List Str) (last : Str) (S : Coll) : Prop where
  mem : ∀ r ∈ S, r ∈ C
  union : (∀ t ∈ complete, ¬ KeptTerm C t) → S.Pairwise (fun a b => a.1 ≤ b.1) ∧ ∀ r ∈ C, S.count r = copiesKept C B last r.2
  inter : (∃ t ∈ complete, KeptTerm C t) → S.Pairwise (fun a b => a.1 < b.1) ∧
    (∀ r ∈ S, (∀ t ∈ complete, KeptTerm C t → t ∈ r.2) ∧ ¬ SkippedKept C B complete r ∧ ∃ b ∈ B, LookedKept C last b ∧ FoundInKept C last b r.2) ∧
    ∀ r ∈ C, (∀ t ∈ complete, KeptTerm C t → t ∈ r.2) → ¬ SkippedKept C B complete r → (∃ b ∈ B, LookedKept C last b ∧ FoundInKept C last b r.2) →
      (∀ b ∈ B, LookedKept C last b → (∃ x ∈ r.2, x ∈ b) → FoundInKept C last b r.2) → r ∈ S

end AC.Spec
