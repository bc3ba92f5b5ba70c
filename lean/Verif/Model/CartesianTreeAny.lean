import Verif.Model.CartesianTree
/-!
# Range-minimum queries for any order, include/succinct_rmq/cartesian_tree.hpp

`builder<T>` and `build` are templates: for elements of any type and any comparator. The indexes use numbers and `std::less`
(`CT.build`).
-/
namespace AC.CT

/-- `cartesian_tree::builder<T>`, data members: include/succinct_rmq/cartesian_tree.hpp:73-74. The stack is listed from its top. -/
structure BuilderOf (α : Type) where
  stack : List α
  bp : BVB

/-- the loop of `push_back`, include/succinct_rmq/cartesian_tree.hpp:48-52 -/
def popLoopBy {α : Type} (comp : α → α → Bool) (val : α) : List α → BVB → BuilderOf α
  | [], bp => ⟨[], bp⟩
  | x :: st, bp => if comp val x then popLoopBy comp val st (bp.pushBack true) else ⟨x :: st, bp⟩

/-- `builder::push_back(val, comp)`, include/succinct_rmq/cartesian_tree.hpp:44-55 -/
def pushBy {α : Type} (comp : α → α → Bool) (b : BuilderOf α) (val : α) : BuilderOf α :=
  let c := popLoopBy comp val b.stack (b.bp.pushBack false)
  ⟨val :: c.stack, c.bp⟩

/-- the loop of `finalize`, include/succinct_rmq/cartesian_tree.hpp:60-63 -/
def drainOf {α : Type} : List α → BVB → BVB
  | [], bp => bp
  | _ :: st, bp => drainOf st (bp.pushBack true)

/-- `builder::finalize()`, include/succinct_rmq/cartesian_tree.hpp:57-68 -/
def finalizeOf {α : Type} (b : BuilderOf α) : BVB := ((drainOf b.stack (b.bp.pushBack false)).pushBack true).reverse

/-- `build(v, comp)`, include/succinct_rmq/cartesian_tree.hpp:79-86 and 143-146; `after` is the word that follows the bits
in memory -/
def buildBy {α : Type} (comp : α → α → Bool) (v : List α) (after : W) : M BP :=
  BP.build (BV.build (finalizeOf (v.foldl (pushBy comp) ⟨[], BVB.empty⟩)) after) false true

end AC.CT
