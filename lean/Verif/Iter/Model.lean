import Verif.Base

/-!
# Model of `counting_iterator` (/repo/include/stdx/iterator.hpp:37-118)

An integer type is a signedness and a width; values are integers in its range.  `bool`, for which `++` is ill-formed, is not
such a type.  `int` has 32 bits.
-/

namespace Verif.Iter

/-- An integer type, `T` of iterator.hpp:37. -/
structure ITy where
  signed : Bool
  width : Nat
  deriving DecidableEq

/-- The least value of `T` (iterator.hpp:117). -/
def ITy.min (t : ITy) : Int := if t.signed then -2 ^ (t.width - 1) else 0

/-- The number after the greatest value of `T` (iterator.hpp:117). -/
def ITy.sup (t : ITy) : Int := if t.signed then 2 ^ (t.width - 1) else 2 ^ t.width

/-- The values of the type, those of the member `i` (iterator.hpp:117). -/
def ITy.Rep (t : ITy) (v : Int) : Prop := t.min ≤ v ∧ v < t.sup

instance (t : ITy) (v : Int) : Decidable (t.Rep v) := inferInstanceAs (Decidable (_ ∧ _))

/-- Conversion to the type: the value congruent modulo `2^width` in its range (the assignments of
iterator.hpp:51, 60, 70, 74, 78). -/
def ITy.cast (t : ITy) (v : Int) : Int := (v - t.min) % 2 ^ t.width + t.min

/-- The type after integral promotion; `difference_type`, iterator.hpp:39, since `T - T` promotes. -/
def ITy.promoted (t : ITy) : ITy := if t.width < 32 then ⟨true, 32⟩ else t

/-- The result of an arithmetic operation in the type, given the exact result: unsigned types wrap, signed overflow is
undefined (the operations of iterator.hpp:51, 60, 70, 74, 78, 103). -/
def ITy.arith (t : ITy) (v : Int) : Outcome Int :=
  if t.signed then (if t.Rep v then .ok v else .ub) else .ok (t.cast v)

/-- `++i`, iterator.hpp:50-53: `i = i + 1` computed after promotion. -/
def inc (t : ITy) (i : Int) : Outcome Int := do
  let r ← t.promoted.arith (i + 1)
  return t.cast r

/-- `--i`, iterator.hpp:59-62. -/
def dec (t : ITy) (i : Int) : Outcome Int := do
  let r ← t.promoted.arith (i - 1)
  return t.cast r

/-- `i++`, iterator.hpp:54-58: the old and the new iterator. -/
def postInc (t : ITy) (i : Int) : Outcome (Int × Int) := do
  let j ← inc t i
  return (i, j)

/-- `i--`, iterator.hpp:63-67. -/
def postDec (t : ITy) (i : Int) : Outcome (Int × Int) := do
  let j ← dec t i
  return (i, j)

/-- `i += d` and `advance`, iterator.hpp:69-80, with `d` a value of the difference type. -/
def addAssign (t : ITy) (i d : Int) : Outcome Int := do
  let r ← t.promoted.arith (i + d)
  return t.cast r

/-- `i -= d`, iterator.hpp:73-76. -/
def subAssign (t : ITy) (i d : Int) : Outcome Int := do
  let r ← t.promoted.arith (i - d)
  return t.cast r

/-- `i + d`, `d + i`, iterator.hpp:82-93. -/
def plus (t : ITy) (i d : Int) : Outcome Int := addAssign t i d

/-- `i - d`, iterator.hpp:94-99. -/
def minus (t : ITy) (i d : Int) : Outcome Int := subAssign t i d

/-- `x - y`, iterator.hpp:100-104. -/
def diff (t : ITy) (x y : Int) : Outcome Int := t.promoted.arith (x - y)

/-- `x == y`, iterator.hpp:106-110. -/
def eq (x y : Int) : Bool := x == y

/-- `x <=> y`, iterator.hpp:112-115. -/
def cmp (x y : Int) : Ordering := compare x y

/-- `n` times `*it++` (iterator.hpp:47-48 and 54-58): the values read, and the iterator after them. -/
def readN (t : ITy) : Nat → Int → Outcome (List Int × Int)
  | 0, i => .ok ([], i)
  | n + 1, i => do
    let p ← postInc t i
    let r ← readN t n p.2
    return (p.1 :: r.1, r.2)

end Verif.Iter
