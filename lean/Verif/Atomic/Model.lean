import Verif.Conc.Model

/-!
# Model of `stdx::atomic<T>` (/repo/include/stdx/atomic.hpp)

`T` is an integer type of `w` bits (for `bool`, enumerations and pointers see `Verif.Atomic.Kinds`) and `elem_t`, the type the external library chooses to store it in, an
integral type of `e ≥ w` bits (`static_assert` at 29-31).  Operations without a result give `none`.  The
functions of the external library wrap around on overflow, as those of `std::atomic` do; arithmetic the
header does itself on their results follows the rules of the language, so overflow of a signed type of at
least the width of `int` is undefined.  The checks of `T` (11-18, 23-38) are not modelled; for
memory orders see `Verif.Conc.Order`.
-/

namespace Verif.Atomic

open Verif.Conc

/-- The types involved, atomic.hpp:20-40: widths of `T` and `elem_t` and whether they are signed. -/
structure Cfg where
  w : Nat
  e : Nat
  tSigned : Bool
  eSigned : Bool

/-- The member functions, atomic.hpp:52-118. -/
inductive Op (w : Nat) where
  | load
  | store (v : BitVec w)
  | assign (v : BitVec w)
  | exchange (v : BitVec w)
  | fetchAdd (v : BitVec w)
  | fetchSub (v : BitVec w)
  | addAssign (v : BitVec w)
  | subAssign (v : BitVec w)
  | preInc
  | postInc
  | preDec
  | postDec
  | fetchAnd (v : BitVec w)
  | fetchOr (v : BitVec w)
  | fetchXor (v : BitVec w)
  | andAssign (v : BitVec w)
  | orAssign (v : BitVec w)
  | xorAssign (v : BitVec w)
  deriving DecidableEq

/-- `static_cast<elem_t>(t)`, e.g. atomic.hpp:58: extends by the sign or by zeros. -/
def widen (C : Cfg) (t : BitVec C.w) : BitVec C.e :=
  if C.tSigned then t.signExtend C.e else t.setWidth C.e

/-- The stored value after construction from `t`, atomic.hpp:48; the default constructor, 45-47, stores
zero like `init C 0`. -/
def init (C : Cfg) (t : BitVec C.w) : BitVec C.e := widen C t

/-- Conversion of an `elem_t` to `T`, e.g. atomic.hpp:54, 71 and 76. -/
def narrow (C : Cfg) (x : BitVec C.e) : BitVec C.w := x.setWidth C.w

/-- `a + b` in a type of `n` bits, converted back to it (atomic.hpp:83 and 88).  Types narrower than the
32 bits of `int` are promoted and do not overflow. -/
def cadd {n : Nat} (signed : Bool) (a b : BitVec n) : Outcome (BitVec n) :=
  if signed ∧ 32 ≤ n ∧ (a.toInt + b.toInt < -2 ^ (n - 1) ∨ 2 ^ (n - 1) ≤ a.toInt + b.toInt) then .ub
  else .ok (a + b)

/-- `a - b` likewise, atomic.hpp:84 and 96. -/
def csub {n : Nat} (signed : Bool) (a b : BitVec n) : Outcome (BitVec n) :=
  if signed ∧ 32 ≤ n ∧ (a.toInt - b.toInt < -2 ^ (n - 1) ∨ 2 ^ (n - 1) ≤ a.toInt - b.toInt) then .ub
  else .ok (a - b)

/-- What each member function does, atomic.hpp:52-118. -/
def impl (C : Cfg) : Op C.w → Prog C.e (Option (BitVec C.w))
  -- 52-55, and the conversion operator 62
  | .load => Conc.load.bind fun r => .ret (some (narrow C r))
  -- 57-59
  | .store v => (Conc.store (widen C v)).bind fun _ => .ret none
  -- 64-67
  | .assign v => (Conc.store (widen C v)).bind fun _ => .ret (some v)
  -- 69-72
  | .exchange v => (Conc.exchange (widen C v)).bind fun r => .ret (some (narrow C r))
  -- 74-77
  | .fetchAdd v => (Conc.fetchAdd (widen C v)).bind fun r => .ret (some (narrow C r))
  -- 78-81
  | .fetchSub v => (Conc.fetchSub (widen C v)).bind fun r => .ret (some (narrow C r))
  -- 83
  | .addAssign v => (Conc.fetchAdd (widen C v)).bind fun r =>
      (Prog.ofOutcome (cadd C.tSigned (narrow C r) v)).bind fun x => .ret (some x)
  -- 84
  | .subAssign v => (Conc.fetchSub (widen C v)).bind fun r =>
      (Prog.ofOutcome (csub C.tSigned (narrow C r) v)).bind fun x => .ret (some x)
  -- 86-89
  | .preInc => (Conc.fetchAdd 1#C.e).bind fun r =>
      (Prog.ofOutcome (cadd C.eSigned r 1#C.e)).bind fun x => .ret (some (narrow C x))
  -- 90-93
  | .postInc => (Conc.fetchAdd 1#C.e).bind fun r => .ret (some (narrow C r))
  -- 94-97
  | .preDec => (Conc.fetchSub 1#C.e).bind fun r =>
      (Prog.ofOutcome (csub C.eSigned r 1#C.e)).bind fun x => .ret (some (narrow C x))
  -- 98-101
  | .postDec => (Conc.fetchSub 1#C.e).bind fun r => .ret (some (narrow C r))
  -- 103-106
  | .fetchAnd v => (Conc.fetchAnd (widen C v)).bind fun r => .ret (some (narrow C r))
  -- 107-110
  | .fetchOr v => (Conc.fetchOr (widen C v)).bind fun r => .ret (some (narrow C r))
  -- 111-114
  | .fetchXor v => (Conc.fetchXor (widen C v)).bind fun r => .ret (some (narrow C r))
  -- 116-118
  | .andAssign v => (Conc.fetchAnd (widen C v)).bind fun r => .ret (some (narrow C r &&& v))
  | .orAssign v => (Conc.fetchOr (widen C v)).bind fun r => .ret (some (narrow C r ||| v))
  | .xorAssign v => (Conc.fetchXor (widen C v)).bind fun r => .ret (some (narrow C r ^^^ v))

end Verif.Atomic
