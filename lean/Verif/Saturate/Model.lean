import Verif.Base

/-!
# Model of `stdx::saturate_cast` (/repo/include/stdx/numeric.hpp:36-61)

An integer type is a signedness and a size in bytes; values are integers in its range.
-/

namespace Verif.Saturate

/-- An integer type, `To` or `From` of numeric.hpp:36. -/
structure ITy where
  signed : Bool
  size : Nat
  deriving DecidableEq

/-- `std::numeric_limits<T>::min()`, numeric.hpp:38. -/
def ITy.min (t : ITy) : Int := if t.signed then -2 ^ (8 * t.size - 1) else 0

/-- `std::numeric_limits<T>::max()`, numeric.hpp:39. -/
def ITy.max (t : ITy) : Int := if t.signed then 2 ^ (8 * t.size - 1) - 1 else 2 ^ (8 * t.size) - 1

/-- Conversion to the type, numeric.hpp:42, 43, 55, 60: the value congruent modulo `2^width` in its range. -/
def ITy.cast (t : ITy) (v : Int) : Int := (v - t.min) % 2 ^ (8 * t.size) + t.min

/-- `std::clamp(v, lo, hi)`, used at numeric.hpp:42: undefined if `hi < lo`. -/
def clamp (v lo hi : Int) : Outcome Int :=
  if hi < lo then .ub else if v < lo then .ok lo else if hi < v then .ok hi else .ok v

/-- `saturate_cast<To>(from)`, numeric.hpp:36-61.  The comparisons at 48 and 54 are between a value and a
constant whose usual arithmetic conversions keep both values. -/
def saturateCast (dst src : ITy) (v : Int) : Outcome Int :=
  if src.size > dst.size then do
    let c ← clamp v (src.cast dst.min) (src.cast dst.max)
    return dst.cast c
  else if src.size = dst.size then
    if !src.signed && dst.signed && decide (v > dst.max) then .ok dst.max
    else if src.signed && !dst.signed && decide (v < 0) then .ok (dst.cast 0)
    else .ok (dst.cast v)
  else .ok (dst.cast v)

end Verif.Saturate
