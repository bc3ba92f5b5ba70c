import Verif.Model.BpVector
/-!
# Range-minimum queries, include/succinct_rmq/cartesian_tree.hpp
-/
namespace AC.CT

/-- `cartesian_tree::builder`, data members: include/succinct_rmq/cartesian_tree.hpp:73-74. The stack is listed from its top. -/
structure Builder where
  stack : List Nat
  bp : BVB

/-- the loop of `push_back`, include/succinct_rmq/cartesian_tree.hpp:48-52, with `std::less` -/
def popLoop (val : Nat) : List Nat → BVB → Builder
  | [], bp => ⟨[], bp⟩
  | x :: st, bp => if val < x then popLoop val st (bp.pushBack true) else ⟨x :: st, bp⟩

/-- `builder::push_back(val, comp)`, include/succinct_rmq/cartesian_tree.hpp:44-55 -/
def push (b : Builder) (val : Nat) : Builder :=
  let c := popLoop val b.stack (b.bp.pushBack false)
  ⟨val :: c.stack, c.bp⟩

/-- the loop of `finalize`, include/succinct_rmq/cartesian_tree.hpp:60-63 -/
def drain : List Nat → BVB → BVB
  | [], bp => bp
  | _ :: st, bp => drain st (bp.pushBack true)

/-- `builder::finalize()`, include/succinct_rmq/cartesian_tree.hpp:57-68 -/
def finalize (b : Builder) : BVB := ((drain b.stack (b.bp.pushBack false)).pushBack true).reverse

/-- `build(v, comp)`, include/succinct_rmq/cartesian_tree.hpp:79-86 and 143-146; `after` is the word that follows the bits
in memory -/
def build (v : List Nat) (after : W) : M BP :=
  BP.build (BV.build (finalize (v.foldl push ⟨[], BVB.empty⟩)) after) false true

/-- `size()`, include/succinct_rmq/cartesian_tree.hpp:125-127 -/
def size (t : BP) : Nat := t.rs.bv.size / 2 - 1

/-- `rmq(a, b)`, include/succinct_rmq/cartesian_tree.hpp:89-119, for `a <= b` (the assert of :92). With `b >= size()` the argument
`n - b - 1` of `select0` is beyond the hints. -/
def rmq (t : BP) (a b : Nat) : M Nat :=
  if a = b then .ok a
  else if size t ≤ b ∨ size t < a then .error .oob
  else do
    let n := size t
    let p ← t.rs.select0 (n - b - 1)
    let excT := int32 ((p : Int) - 2 * ((n - b - 1 : Nat) : Int))
    let x ← t.rs.select0 (n - b)
    let y ← t.rs.select0 (n - a)
    let (w, excW) ← t.excessRmq x y
    let rank0 := (((w : Int) - excW) % 2 ^ 64).toNat / 2
    .ok (if excW ≥ excT - 1 then b else n - rank0)

end AC.CT
