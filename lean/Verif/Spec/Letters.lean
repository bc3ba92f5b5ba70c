import Verif.Spec.Query
/-!
# Other letters
-/
namespace AC.Spec

/-- every letter is replaced by another one, different letters by different ones, and spaces stay -/
structure Renaming (f : Nat → Nat) : Prop where
  inj : ∀ a b, f a = f b → a = b
  space : f space = space

/-- a text with the other letters -/
def rename (f : Nat → Nat) (s : Str) : Str := s.map f

/-- a completion with the other letters -/
def renameAll (f : Nat → Nat) (c : List Str) : List Str := c.map (rename f)

/-- `D` has the completions of `C` with the other letters, with the same document ids, perhaps in another order -/
def Renamed (f : Nat → Nat) (C D : Coll) : Prop := ∀ r, r ∈ D ↔ ∃ s ∈ C, r = (s.1, renameAll f s.2)

/-- every letter is replaced by another one such that their order stays, and spaces stay -/
structure Ordered (f : Nat → Nat) : Prop where
  mono : ∀ a b, a < b → f a < f b
  space : f space = space

/-- a collection with the other letters, in the same order -/
def renameColl (f : Nat → Nat) (C : Coll) : Coll := C.map fun r => (r.1, renameAll f r.2)

end AC.Spec
