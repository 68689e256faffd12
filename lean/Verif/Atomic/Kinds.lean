import Verif.Atomic.Model

/-!
# Model of `stdx::atomic<T>` for types that are not integers (/repo/include/stdx/atomic.hpp)

`T` may be `bool`, an enumeration, a pointer or a class; the configuration may have it stored as another type, as
the documentation does for `bool` and the test configuration for `bool`, pointers and all enumerations (test/detail/atomic_cfg.hpp:6-22).
Which member functions can be instantiated depends on the conversions they use.  The functions of the external library are parameters as
far as it is concerned for which types it has the arithmetic ones.
-/

namespace Verif.Atomic

open Verif.Conc

/-- What kind of type: `atomic<T>` and `elem_t`, atomic.hpp:11-20. `strict`: a scoped enumeration. The width of the value is in bits; that of `bool` is one. -/
inductive Kind where
  | int (signed : Bool) (w : Nat)
  | bool
  | enum (strict : Bool) (signed : Bool) (w : Nat)
  | pointer (w : Nat)
  | other (w : Nat)
  deriving DecidableEq

/-- Bits of the value, atomic.hpp:40. -/
def Kind.width : Kind → Nat
  | .int _ w | .enum _ _ w | .pointer w | .other w => w
  | .bool => 1

/-- Whether negative values exist, which decides how `static_cast` extends the value, e.g. atomic.hpp:58. -/
def Kind.signed : Kind → Bool
  | .int s _ | .enum _ s _ => s
  | _ => false

/-- An arithmetic or enumeration type, between which the casts of atomic.hpp:48-58 exist. -/
def Kind.numeric : Kind → Bool
  | .int .. | .bool | .enum .. => true
  | _ => false

/-- `static_cast` from `a` to `b` is possible, atomic.hpp:48, 54, 58: between arithmetic and enumeration types, from a pointer to `bool`, and
to the same type; not between pointers and integers. -/
def Kind.castable (a b : Kind) : Bool :=
  a = b || (a.numeric && b.numeric) || (match a, b with | .pointer _, .bool => true | _, _ => false)

/-- The implicit conversion from `a` to `b` exists, the `return` statements atomic.hpp:70-118: to an arithmetic type from an arithmetic type,
an unscoped enumeration, and for `bool` a pointer; nothing converts to an enumeration. -/
def Kind.converts (a b : Kind) : Bool :=
  a = b ||
  match a, b with
  | .int .., .int .. | .int .., .bool | .bool, .int .. | .bool, .bool => true
  | .enum false _ _, .int .. | .enum false _ _, .bool => true
  | .pointer _, .bool => true
  | _, _ => false

/-- The value of the conversion (the value itself between equal types, `x != 0` for `bool`, otherwise extended or cut off), e.g. atomic.hpp:54
and 58. -/
def Kind.conv (a b : Kind) (x : BitVec a.width) : BitVec b.width :=
  if a = b then x.setWidth b.width
  else if b = .bool then (if x = 0#a.width then 0#b.width else 1#b.width)
  else if a.signed then x.signExtend b.width
  else x.setWidth b.width

/-- `t + t`, `t & t` and so on are valid and have an integral type, atomic.hpp:75, 79, 104, 108, 112 (a class is taken to have no operators; the
difference of two pointers is treated in `Kind.minus`). -/
def Kind.plus : Kind → Bool
  | .int .. | .bool | .enum false _ _ => true
  | _ => false

/-- `t - t` is valid, atomic.hpp:79. -/
def Kind.minus : Kind → Bool
  | .pointer _ => true
  | k => k.plus

/-- The type of `fetch_add(t) + t` and so on, atomic.hpp:83-84, 116-118: an integer type (an `int` if it was narrower; only that it is an integer matters). -/
def Kind.promoted : Kind → Kind
  | .int s w => .int s w
  | _ => .int true 32

/-- `a + b` of two `T`, converted to `T`, atomic.hpp:83: of two `bool` it is an `int`, which is true unless it is zero. -/
def Kind.add (T : Kind) (a b : BitVec T.width) : Outcome (BitVec T.width) :=
  match T, a, b with
  | .bool, a, b => .ok (if a.toNat + b.toNat = 0 then 0#1 else 1#1)
  | .int s _, a, b => cadd s a b
  | _, a, b => .ok (a + b)

/-- `a - b` likewise, atomic.hpp:84. -/
def Kind.sub (T : Kind) (a b : BitVec T.width) : Outcome (BitVec T.width) :=
  match T, a, b with
  | .bool, a, b => .ok (if (a.toNat : Int) - b.toNat = 0 then 0#1 else 1#1)
  | .int s _, a, b => csub s a b
  | _, a, b => .ok (a - b)

/-- Each member function of `atomic<T>` stored as `E`, atomic.hpp:52-118, or `none` if it cannot be instantiated.  `L E`: the external library has arithmetic for `E`. `++x`
and so on are only modelled for integers stored as integers (otherwise `none`: `++t` is not valid for `bool` since C++17 nor for enumerations, atomic.hpp:87; for
pointers it depends on the external library). -/
def implK (L : Kind → Bool) (T E : Kind) : Op T.width → Option (Prog E.width (Option (BitVec T.width)))
  -- 52-55, 62
  | .load => if E.castable T then some (Conc.load.bind fun r => .ret (some (E.conv T r))) else none
  -- 57-59
  | .store v => if T.castable E then some ((Conc.store (T.conv E v)).bind fun _ => .ret none) else none
  -- 64-67
  | .assign v => if T.castable E then some ((Conc.store (T.conv E v)).bind fun _ => .ret (some v)) else none
  -- 69-72
  | .exchange v =>
    if T.castable E && E.converts T then some ((Conc.exchange (T.conv E v)).bind fun r => .ret (some (E.conv T r))) else none
  -- 74-77
  | .fetchAdd v =>
    if T.plus && T.castable E && L E && E.converts T then
      some ((Conc.fetchAdd (T.conv E v)).bind fun r => .ret (some (E.conv T r))) else none
  -- 78-81
  | .fetchSub v =>
    if T.minus && T.castable E && L E && E.converts T then
      some ((Conc.fetchSub (T.conv E v)).bind fun r => .ret (some (E.conv T r))) else none
  -- 83
  | .addAssign v =>
    if T.plus && T.castable E && L E && E.converts T && T.promoted.converts T then
      some ((Conc.fetchAdd (T.conv E v)).bind fun r =>
        (Prog.ofOutcome (T.add (E.conv T r) v)).bind fun x => .ret (some x)) else none
  -- 84
  | .subAssign v =>
    if T.minus && T.castable E && L E && E.converts T && T.promoted.converts T then
      some ((Conc.fetchSub (T.conv E v)).bind fun r =>
        (Prog.ofOutcome (T.sub (E.conv T r) v)).bind fun x => .ret (some x)) else none
  -- 86-89
  | .preInc =>
    match T, E with
    | .int _ w, .int s e =>
      if L (.int s e) then some ((Conc.fetchAdd 1#e).bind fun r =>
        (Prog.ofOutcome (cadd s r 1#e)).bind fun x => .ret (some (x.setWidth w))) else none
    | _, _ => none
  -- 90-93
  | .postInc =>
    match T, E with
    | .int _ w, .int s e =>
      if L (.int s e) then some ((Conc.fetchAdd 1#e).bind fun r => .ret (some (r.setWidth w))) else none
    | _, _ => none
  -- 94-97
  | .preDec =>
    match T, E with
    | .int _ w, .int s e =>
      if L (.int s e) then some ((Conc.fetchSub 1#e).bind fun r =>
        (Prog.ofOutcome (csub s r 1#e)).bind fun x => .ret (some (x.setWidth w))) else none
    | _, _ => none
  -- 98-101
  | .postDec =>
    match T, E with
    | .int _ w, .int s e =>
      if L (.int s e) then some ((Conc.fetchSub 1#e).bind fun r => .ret (some (r.setWidth w))) else none
    | _, _ => none
  -- 103-106
  | .fetchAnd v =>
    if T.plus && T.castable E && L E && E.converts T then
      some ((Conc.fetchAnd (T.conv E v)).bind fun r => .ret (some (E.conv T r))) else none
  -- 107-110
  | .fetchOr v =>
    if T.plus && T.castable E && L E && E.converts T then
      some ((Conc.fetchOr (T.conv E v)).bind fun r => .ret (some (E.conv T r))) else none
  -- 111-114
  | .fetchXor v =>
    if T.plus && T.castable E && L E && E.converts T then
      some ((Conc.fetchXor (T.conv E v)).bind fun r => .ret (some (E.conv T r))) else none
  -- 116-118
  | .andAssign v =>
    if T.plus && T.castable E && L E && E.converts T && T.promoted.converts T then
      some ((Conc.fetchAnd (T.conv E v)).bind fun r => .ret (some (E.conv T r &&& v))) else none
  | .orAssign v =>
    if T.plus && T.castable E && L E && E.converts T && T.promoted.converts T then
      some ((Conc.fetchOr (T.conv E v)).bind fun r => .ret (some (E.conv T r ||| v))) else none
  | .xorAssign v =>
    if T.plus && T.castable E && L E && E.converts T && T.promoted.converts T then
      some ((Conc.fetchXor (T.conv E v)).bind fun r => .ret (some (E.conv T r ^^^ v))) else none

/-- The constructor from a value, atomic.hpp:48. -/
def initK (T E : Kind) (t : BitVec T.width) : Option (BitVec E.width) :=
  if T.castable E then some (T.conv E t) else none

/-- A member function, atomic.hpp:52-118, with `ub` standing for one that cannot be instantiated; the theorems only use it for those that can. -/
def implD (L : Kind → Bool) (T E : Kind) (op : Op T.width) : Prog E.width (Option (BitVec T.width)) :=
  (implK L T E op).getD .ub

end Verif.Atomic
