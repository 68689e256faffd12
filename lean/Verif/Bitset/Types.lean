import Verif.Bitset.Model

/-!
# Where the types of words and targets matter in `stdx::bitset` (/repo/include/stdx/bitset.hpp)

`Verif.Bitset.Model` takes a 64-bit word to be `std::uint64_t` and a target to be an integer.
-/

namespace Verif.Bitset

/-- `bitset(std::uint64_t)`, bitset.hpp:185-197, with words of `w` bits; `isU64` says that the word
type is `std::uint64_t`. -/
def ofU64As (isU64 : Bool) (w N : Nat) (v : BitVec 64) : Outcome (Words w) :=
  if isU64 then arrSet (empty w N) 0 (v.setWidth w) else u64Loop (empty w N) v

/-- The targets of `to<T>()`, bitset.hpp:230-237: an integer type, or an enumeration, scoped or not. -/
inductive Kind
  | integer
  | unscopedEnum
  | scopedEnum
  deriving DecidableEq

/-- `to<T>()`, bitset.hpp:230-250, for a target of `u` bits.  If `U` is not the word type, line 245
assigns a `T` to a `U`: a scoped enumeration does not convert. -/
def toAs {w : Nat} (N u : Nat) (sameType : Bool) (k : Kind) (s : Words w) : Option (Outcome (BitVec u)) :=
  if k = .scopedEnum ∧ sameType = false then none else to N u sameType s

end Verif.Bitset
