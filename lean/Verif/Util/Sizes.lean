import Verif.Util.Model
import Verif.Udl.Model

/-!
# Model of sizes in other units: `sized` objects and the literals `_z8`, `_z16`, `_z32`, `_z64`  (/repo/include/stdx/utility.hpp)

`std::size_t` has `w` bits. `none` is a program that does not compile.
-/

namespace Verif.Util

/-- The units that literals have: `sized8` to `sized64` and `z8` to `z64` (utility.hpp:161-164 and 170-173). -/
inductive Size where
  | z8
  | z16
  | z32
  | z64
  deriving DecidableEq, Repr

/-- `sizeof` of the types named at utility.hpp:161-164, 170-173 and 180-189. -/
def Size.bytes : Size → Nat
  | .z8 => 1
  | .z16 => 2
  | .z32 => 4
  | .z64 => 8

/-- `x.in<U>()` where `x` is a `sized<T>` made from `n`: `in` is not a const member function (utility.hpp:152-159). -/
def objectIn (w : Nat) (isConst : Bool) (T U n : Nat) : Option Nat := if isConst then none else some (sizeConversion w T U n)

/-- `cs_zT->in<U>` where `cs` are the characters of the literal: the number is parsed as a `std::size_t` (utility.hpp:166-177 and 179-191). -/
def literalIn (w : Nat) (cs : List Nat) (T : Size) (U : Nat) : Option Nat :=
  match Udl.parseLiteral ⟨false, w⟩ cs with
  | .ok n => some (sizeConversion w T.bytes U n.toNat)
  | _ => none

/-- `cs_zT->zU` (utility.hpp:170-173). -/
def literal (w : Nat) (cs : List Nat) (T U : Size) : Option Nat := literalIn w cs T U.bytes

end Verif.Util
