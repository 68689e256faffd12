import Verif.Byterator.Model

/-!
# Model of byterators that are const, or whose elements are  (/repo/include/stdx/byterator.hpp)

Which expressions the compiler rejects is an outcome of its own; all the rest is as in `Verif/Byterator/Model.lean`.
-/

namespace Verif.Byterator

open Verif.Endian

/-- Expressions with a byterator `i`: `*i`, `i[n]`, `*(i + n)`, read or assigned to; `i.peek<V>()`, `i.read<V>()`, `i.write(v)` for values of `n` bytes;
`i += d` (byterator.hpp:72, 93-96, 106-111, 128-142 and 157-171). -/
inductive Expr where
  | star
  | setStar (b : BitVec 8)
  | index (n : Int)
  | setIndex (n : Int) (b : BitVec 8)
  | plus (n : Int)
  | setPlus (n : Int) (b : BitVec 8)
  | peek (n : Nat)
  | read (n : Nat)
  | write (n : Nat) (v : BitVec (8 * n))
  | addAssign (d : Int)

/-- What comes of an expression: it is rejected, it is undefined, or there are a value, the storage and the position of `i` afterwards
(byterator.hpp:72-171). -/
inductive Effect where
  | rejected
  | undefined
  | done (value : Nat) (m : Mem) (p : Int)
  deriving DecidableEq, Repr

/-- The outcome of an expression that compiles (byterator.hpp:72-171). -/
def Effect.of : Outcome (Nat × Mem × Int) → Effect
  | .ok (x, m, p) => .done x m p
  | _ => .undefined

/-- The reference that `*i` is: `byte_t &`, const only if the elements are (byterator.hpp:34-35 and 72). -/
def starConst (_self elem : Bool) : Bool := elem

/-- The reference that `i[n]` is: `byte_t &` if `i` is not const, `byte_t const &` if it is (byterator.hpp:128-134). -/
def indexConst (self elem : Bool) : Bool := self || elem

/-- The reference that `*(i + n)` is: `i` is copied (byterator.hpp:106-111). -/
def plusConst (_self elem : Bool) : Bool := starConst false elem

/-- Whether the compiler takes the expression: `self` if `i` is const, `elem` if the elements are. `peek`, `read`, `write` and `+=` are not const member
functions, and `write` copies to the elements (byterator.hpp:93, 138, 159, 167 and 169). -/
def accepts (self elem : Bool) : Expr → Bool
  | .star => true
  | .setStar _ => !starConst self elem
  | .index _ => true
  | .setIndex _ _ => !indexConst self elem
  | .plus _ => true
  | .setPlus _ _ => !plusConst self elem
  | .peek _ => !self
  | .read _ => !self
  | .write _ _ => !self && !elem
  | .addAssign _ => !self

/-- What the expression does (byterator.hpp:72, 93-96, 106-111, 128-142 and 157-171). -/
def does (e : Endian) (m : Mem) (p : Int) : Expr → Outcome (Nat × Mem × Int)
  | .star => do let b ← deref m p; return (b.toNat, m, p)
  | .setStar b => do let m' ← assign m p b; return (b.toNat, m', p)
  | .index n => do let b ← Byterator.index m p n; return (b.toNat, m, p)
  | .setIndex n b => do let m' ← assign m (p + n) b; return (b.toNat, m', p)
  | .plus n => do let q ← Byterator.plus m p n; let b ← deref m q; return (b.toNat, m, p)
  | .setPlus n b => do let q ← Byterator.plus m p n; let m' ← assign m q b; return (b.toNat, m', p)
  | .peek n => do let x ← Byterator.peek e m p n (8 * n); return (x.toNat, m, p)
  | .read n => do let (x, q) ← Byterator.read e m p n (8 * n); return (x.toNat, m, q)
  | .write n v => do let (m', q) ← Byterator.write e m p n v; return (0, m', q)
  | .addAssign d => do let q ← Byterator.addAssign m p d; return (0, m, q)

/-- An expression, compiled and evaluated (byterator.hpp:72-171). -/
def evalConst (self elem : Bool) (e : Endian) (m : Mem) (p : Int) (x : Expr) : Effect :=
  if accepts self elem x then .of (does e m p x) else .rejected

/-- A program of expressions: rejected if one of them is (byterator.hpp:72-171). -/
def runConst (self elem : Bool) (e : Endian) (m : Mem) (p : Int) (xs : List Expr) : Effect :=
  if xs.all (accepts self elem) then go m p xs else .rejected
where
  /-- The expressions one after the other (byterator.hpp:72-171); the value is that of the last one. -/
  go (m : Mem) (p : Int) : List Expr → Effect
    | [] => .done 0 m p
    | [x] => .of (does e m p x)
    | x :: y :: xs => match does e m p x with
      | .ok (_, m', p') => go m' p' (y :: xs)
      | _ => .undefined

end Verif.Byterator
