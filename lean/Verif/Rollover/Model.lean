import Verif.Base

/-!
# Model of `stdx::rollover_t<T>` (/repo/include/stdx/rollover.hpp)

`T` is an unsigned type of `w` bits; the value is a `BitVec w`.  A `T` narrower than the 32-bit `int`
is promoted to the *signed* `int` by the built-in arithmetic operators, so arithmetic whose exact
result is outside the range of `int` is undefined; wider types compute modulo `2^w`.  `bool`, which `unsigned_integral`
also admits, is modelled in `Verif.Rollover.Types`; construction from floating-point values is not modelled.
-/

namespace Verif.Rollover

/-- A built-in arithmetic operation on operands of type `T` with exact result `z`, converted back to
`T`.  Promotion to `int` for types below 32 bits (rollover.hpp:31,35,41,47,51,55,59,63,101). -/
def carith (w : Nat) (z : Int) : Outcome (BitVec w) :=
  if w < 32 then
    if -(2 ^ 31) ≤ z ∧ z < 2 ^ 31 then .ok (BitVec.ofInt w z) else .ub
  else .ok (BitVec.ofInt w z)

/-- The exact value of an operand (rollover.hpp:22-25). -/
def val {w : Nat} (x : BitVec w) : Int := x.toNat

/-- `rollover_t(U u)` for an integer argument, rollover.hpp:16-17. -/
def ofInteger (w : Nat) (u : Int) : BitVec w := BitVec.ofInt w u

/-- `rollover_t(rollover_t<U> u)`, rollover.hpp:18-20. -/
def ofRollover {v : Nat} (w : Nat) (u : BitVec v) : BitVec w := ofInteger w (val u)

/-- Unary `+`, rollover.hpp:27-29. -/
def plus {w : Nat} (x : BitVec w) : Outcome (BitVec w) := .ok x

/-- Unary `-`, rollover.hpp:30-32. -/
def neg {w : Nat} (x : BitVec w) : Outcome (BitVec w) := carith w (-(val x))

/-- `++value`, rollover.hpp:34-37: the new value. -/
def inc {w : Nat} (x : BitVec w) : Outcome (BitVec w) := carith w (val x + 1)

/-- `value++`, rollover.hpp:38: the returned value and the new value. -/
def postInc {w : Nat} (x : BitVec w) : Outcome (BitVec w × BitVec w) := do
  let y ← carith w (val x + 1)
  return (x, y)

/-- `--value`, rollover.hpp:40-43. -/
def dec {w : Nat} (x : BitVec w) : Outcome (BitVec w) := carith w (val x - 1)

/-- `value--`, rollover.hpp:44. -/
def postDec {w : Nat} (x : BitVec w) : Outcome (BitVec w × BitVec w) := do
  let y ← carith w (val x - 1)
  return (x, y)

/-- `+=` (rollover.hpp:46-49), and `+` (104-109) which copies the left operand first. -/
def add {w : Nat} (x y : BitVec w) : Outcome (BitVec w) := carith w (val x + val y)

/-- `-=` (rollover.hpp:50-53) and `-` (110-115). -/
def sub {w : Nat} (x y : BitVec w) : Outcome (BitVec w) := carith w (val x - val y)

/-- `*=` (rollover.hpp:54-57) and `*` (116-121). -/
def mul {w : Nat} (x y : BitVec w) : Outcome (BitVec w) := carith w (val x * val y)

/-- `/=` (rollover.hpp:58-61) and `/` (122-127): undefined for a zero divisor. -/
def div {w : Nat} (x y : BitVec w) : Outcome (BitVec w) :=
  if y = 0#w then .ub else carith w ((val x).tdiv (val y))

/-- `%=` (rollover.hpp:62-65) and `%` (128-133): undefined for a zero divisor. -/
def mod {w : Nat} (x y : BitVec w) : Outcome (BitVec w) :=
  if y = 0#w then .ub else carith w ((val x).tmod (val y))

/-- `==`, rollover.hpp:68-71. -/
def eq {w : Nat} (x y : BitVec w) : Bool := x == y

/-- `cmp_less`, rollover.hpp:98-102.  `mid` is half of the largest value, rounded down. -/
def cmpLess {w : Nat} (x y : BitVec w) : Outcome Bool := do
  let d ← carith w (val x - val y)
  return (2 ^ w - 1) / 2 < d.toNat

/-- Programs built from the operators (rollover.hpp:16-133). -/
inductive Expr where
  | lit (u : Int)
  | neg (e : Expr)
  | inc (e : Expr)
  | dec (e : Expr)
  | add (a b : Expr)
  | sub (a b : Expr)
  | mul (a b : Expr)

/-- What the library computes for a program (rollover.hpp:16-133). -/
def Expr.run (w : Nat) : Expr → Outcome (BitVec w)
  | .lit u => .ok (ofInteger w u)
  | .neg e => do let x ← e.run w; Rollover.neg x
  | .inc e => do let x ← e.run w; Rollover.inc x
  | .dec e => do let x ← e.run w; Rollover.dec x
  | .add a b => do let x ← a.run w; let y ← b.run w; Rollover.add x y
  | .sub a b => do let x ← a.run w; let y ← b.run w; Rollover.sub x y
  | .mul a b => do let x ← a.run w; let y ← b.run w; Rollover.mul x y

/-- Statements on one variable of type `rollover_t<T>` (rollover.hpp:34-65). -/
inductive Stmt (w : Nat) where
  | addAssign (y : BitVec w)
  | subAssign (y : BitVec w)
  | mulAssign (y : BitVec w)
  | divAssign (y : BitVec w)
  | modAssign (y : BitVec w)
  | preInc
  | preDec
  | postInc
  | postDec

/-- The new value of the variable and the value of the statement; compound assignments and the prefix
operators return a reference to the variable (rollover.hpp:34-65). -/
def Stmt.step {w : Nat} (x : BitVec w) : Stmt w → Outcome (BitVec w × BitVec w)
  | .addAssign y => do let r ← add x y; return (r, r)
  | .subAssign y => do let r ← sub x y; return (r, r)
  | .mulAssign y => do let r ← mul x y; return (r, r)
  | .divAssign y => do let r ← div x y; return (r, r)
  | .modAssign y => do let r ← mod x y; return (r, r)
  | .preInc => do let r ← inc x; return (r, r)
  | .preDec => do let r ← dec x; return (r, r)
  | .postInc => do let (o, r) ← Rollover.postInc x; return (r, o)
  | .postDec => do let (o, r) ← Rollover.postDec x; return (r, o)

/-- A sequence of statements: the final value and the value of each statement
(rollover.hpp:34-65). -/
def Stmt.run {w : Nat} (x : BitVec w) : List (Stmt w) → Outcome (BitVec w × List (BitVec w))
  | [] => .ok (x, [])
  | s :: ss => do
    let (x1, r) ← s.step x
    let (x2, rs) ← Stmt.run x1 ss
    return (x2, r :: rs)

end Verif.Rollover
