/-!
# Outcomes of the modelled C++ code

`M α` is the result of running a piece of C++: a value, or a fault.
-/
namespace AC

/-- What can go wrong when the code runs. -/
inductive Fault where
  /-- a read or a write outside of the addressed object (undefined behaviour) -/
  | oob
  /-- `__builtin_unreachable()` is executed (undefined behaviour) -/
  | unreachable
  /-- an exception is thrown -/
  | thrown
  /-- a loop ran out of the fuel the model gives it -/
  | diverge
  /-- an `assert` fails (in a build with assertions only) -/
  | aborted
  deriving DecidableEq, Repr

/-- Result of running code: a value or a fault. -/
abbrev M (α : Type) := Except Fault α

instance {α : Type} [DecidableEq α] : DecidableEq (M α) := fun a b =>
  match a, b with
  | .ok x, .ok y => if h : x = y then isTrue (h ▸ rfl) else isFalse (fun e => h (Except.ok.inj e))
  | .error x, .error y =>
      if h : x = y then isTrue (h ▸ rfl) else isFalse (fun e => h (Except.error.inj e))
  | .ok _, .error _ => isFalse nofun
  | .error _, .ok _ => isFalse nofun

@[simp] theorem M.ok_bind {α β : Type} (a : α) (f : α → M β) :
    ((Except.ok a : M α) >>= f) = f a := rfl

@[simp] theorem M.error_bind {α β : Type} (e : Fault) (f : α → M β) :
    ((Except.error e : M α) >>= f) = Except.error e := rfl

@[simp] theorem M.pure_eq {α : Type} (a : α) : (pure a : M α) = Except.ok a := rfl

/-- `assert(c)` in a build without `NDEBUG` (CMakeLists.txt:4-12, README.md:77) -/
def check (c : Prop) [Decidable c] : M Unit := if c then .ok () else .error .aborted

/-- `v[i]` on a `std::vector`/array: reading outside is undefined behaviour. -/
def rd {α : Type} (v : List α) (i : Nat) : M α :=
  match v[i]? with
  | some a => .ok a
  | none => .error .oob

/-- `v[i] = a` on a `std::vector`/array. -/
def wr {α : Type} (v : List α) (i : Nat) (a : α) : M (List α) :=
  if i < v.length then .ok (v.set i a) else .error .oob

/-- `memcpy(dst + doff, src + soff, n * sizeof(element))` between two arrays. -/
def memcpy {α : Type} (dst : List α) (doff : Nat) (src : List α) (soff n : Nat) : M (List α) :=
  if soff + n ≤ src.length ∧ doff + n ≤ dst.length then
    .ok (dst.take doff ++ (src.drop soff).take n ++ dst.drop (doff + n))
  else .error .oob

theorem rd_ok {α : Type} {v : List α} {i : Nat} (h : i < v.length) : rd v i = .ok v[i] := by
  simp [rd, h]

theorem rd_of_getElem? {α : Type} {v : List α} {i : Nat} {a : α} (h : v[i]? = some a) :
    rd v i = .ok a := by
  simp [rd, h]

theorem wr_ok {α : Type} {v : List α} {i : Nat} {a : α} (h : i < v.length) :
    wr v i a = .ok (v.set i a) := by
  simp [wr, h]

theorem memcpy_ok {α : Type} {dst src : List α} {doff soff n : Nat}
    (h1 : soff + n ≤ src.length) (h2 : doff + n ≤ dst.length) :
    memcpy dst doff src soff n =
      .ok (dst.take doff ++ (src.drop soff).take n ++ dst.drop (doff + n)) := by
  simp [memcpy, h1, h2]

theorem memcpy_length {α : Type} {dst src dst' : List α} {doff soff n : Nat}
    (h : memcpy dst doff src soff n = .ok dst') : dst'.length = dst.length := by
  unfold memcpy at h
  split at h
  · rename_i hc
    cases h
    simp
    omega
  · cases h

end AC
