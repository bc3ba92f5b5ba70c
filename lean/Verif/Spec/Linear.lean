import Verif.Spec.Query
/-!
# The size of a collection
-/
namespace AC.Spec

/-- the number of terms in all completions, with repetitions -/
def wordCount (C : Coll) : Nat := (C.map fun r => r.2.length).sum

/-- the number of bytes of these terms -/
def letterCount (C : Coll) : Nat := (C.map fun r => (r.2.map List.length).sum).sum

/-- what an index may take: 177 bytes for a term, 4 for a letter, 9 for a document id, and 61000 -/
def linearSize (C : Coll) (D : Nat) : Nat := 177 * wordCount C + 4 * letterCount C + 9 * D + 61000

end AC.Spec
