import Verif.Byterator.Model

/-!
# Messages written with `byterator` and the byte order conversions
(/repo/include/stdx/byterator.hpp, /repo/include/stdx/bit.hpp)

A message is a sequence of unsigned fields of `2^k` bytes, each in little or big endian order and possibly aligned.  The programs that
write and read it are those that a user writes with the functions of the library.  `Endian` is the host.
-/

namespace Verif.Message

open Verif.Endian Verif.Byterator

/-- The byte order of a field: that of `to_le` or of `to_be` (bit.hpp:242-276). -/
inductive Order where
  | le
  | be
  deriving DecidableEq

/-- A field of `2^k` bytes; if it is aligned, `advance_to_alignment` precedes it (byterator.hpp:148-155). -/
structure Shape where
  order : Order
  k : Nat
  aligned : Bool

/-- A field and the value given to `write` (byterator.hpp:165-171). -/
structure Field extends Shape where
  val : BitVec (8 * 2 ^ k)

/-- `to_le(v)` or `to_be(v)`, bit.hpp:242-258. -/
def toWire (e : Endian) (o : Order) (n : Nat) (v : BitVec (8 * n)) : BitVec (8 * n) :=
  match o with
  | .le => toLe e n v
  | .be => toBe e n v

/-- `from_le(v)` or `from_be(v)`, bit.hpp:260-276. -/
def fromWire (e : Endian) (o : Order) (n : Nat) (v : BitVec (8 * n)) : BitVec (8 * n) :=
  match o with
  | .le => fromLe e n v
  | .be => fromBe e n v

/-- `i.advance_to_alignment<V>()` if the field is aligned, byterator.hpp:148-155. -/
def skip (m : Mem) (p : Int) (s : Shape) : Outcome Int :=
  if s.aligned then advanceToAlignment m p (2 ^ s.k) 0 else .ok p

/-- The fields in turn: `i.advance_to_alignment<V>(); i.write(to_le(v));` (byterator.hpp:148-155, 165-171). -/
def encode (e : Endian) : Mem → Int → List Field → Outcome (Mem × Int)
  | m, p, [] => .ok (m, p)
  | m, p, f :: fs => do
    let p ← skip m p f.toShape
    let (m, p) ← write e m p (2 ^ f.k) (toWire e f.order _ f.val)
    encode e m p fs

/-- The fields in turn: `i.advance_to_alignment<V>(); auto v = from_le(i.read<V>());` (byterator.hpp:148-163): the values and the
position. -/
def decode (e : Endian) (m : Mem) : Int → List Shape → Outcome (List Nat × Int)
  | p, [] => .ok ([], p)
  | p, s :: ss => do
    let p ← skip m p s
    let (x, p) ← read e m p (2 ^ s.k) (8 * 2 ^ s.k)
    let (vs, p) ← decode e m p ss
    return ((fromWire e s.order _ x).toNat :: vs, p)

end Verif.Message
