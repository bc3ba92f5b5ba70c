/-!
# Constants
-/
namespace AC

/-- `constants::MAX_K`, include/constants.hpp:5 -/
def MAX_K : Nat := 15
/-- `constants::MAX_NUM_TERMS_PER_QUERY`, include/constants.hpp:6 -/
def MAX_TERMS : Nat := 64
/-- `constants::MAX_NUM_CHARS_PER_QUERY`, include/constants.hpp:7 -/
def MAX_CHARS : Nat := 128
/-- `constants::POOL_SIZE`, include/constants.hpp:8 -/
def POOL_SIZE : Nat := MAX_K * MAX_CHARS
/-- `global::invalid_term_id = id_type(-1)`, include/util.hpp:30 -/
def INVALID_TERM : Nat := 2 ^ 32 - 1
/-- `global::not_found = uint64_t(-1)`, include/util.hpp:32 -/
def NOT_FOUND : Nat := 2 ^ 64 - 1

/-- `struct range`, include/util_types.hpp:35-41 -/
structure Range where
  b : Nat
  e : Nat
  deriving DecidableEq, Repr, Inhabited

/-- `global::invalid_range`, include/util_types.hpp:43-45 -/
def Range.invalid : Range := ⟨NOT_FOUND, NOT_FOUND⟩

/-- `range::is_invalid`, include/util_types.hpp:47-50; its negation `is_valid`, :52-54, occurs in asserts only -/
def Range.isInvalid (r : Range) : Bool :=
  r.b == NOT_FOUND || r.e == NOT_FOUND || decide (r.b > r.e)

/-- `range::contains`, include/util_types.hpp:56-59 -/
def Range.contains (r : Range) (v : Nat) : Bool := decide (v ≥ r.b) && decide (v ≤ r.e)

end AC
