import Verif.Byterator.Model

/-!
# Signed values (/repo/include/stdx/byterator.hpp)

`peek`, `read` and the `writeu…` functions with signed types: the conversions of the values go through the sign.
-/

namespace Verif.Byterator

open Verif.Endian

/-- `peek<V, R>()`, byterator.hpp:136-142, for a signed `V` of `n` bytes and an `R` of `r` bits: `static_cast<R>` of the value. -/
def peekSigned (e : Endian) (m : Mem) (p : Int) (n r : Nat) : Outcome (BitVec r) := do
  let bs ← load m p n
  return (ofMem e n bs).signExtend r

/-- `read<V, R>()`, byterator.hpp:157-163, for a signed `V`. -/
def readSigned (e : Endian) (m : Mem) (p : Int) (n r : Nat) : Outcome (BitVec r × Int) := do
  let ret ← peekSigned e m p n r
  let q ← ptrAdd m p n
  return (ret, q)

/-- `writeu8` ... `writeu64`, byterator.hpp:182-223, with a signed argument of `r` bits: `static_cast` to the unsigned type. -/
def writeAsSigned (e : Endian) (m : Mem) (p : Int) (n : Nat) {r : Nat} (v : BitVec r) : Outcome (Mem × Int) :=
  write e m p n (v.signExtend (8 * n))

end Verif.Byterator
