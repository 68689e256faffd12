import Verif.Word

/-!
# Model of the fallback bit operations of /repo/include/stdx/bit.hpp:66-234

These are the definitions used when the standard library does not provide them
(`__cpp_lib_bitops`, `__cpp_lib_int_pow2`); otherwise the library aliases the functions of `std`,
which are not part of the project and are not modelled.
-/

namespace Verif.BitOps

/-! ## Rotations -/

/-- The two implementations of `detail::rotl`/`detail::rotr`, selected by `__clang__` (bit.hpp:135,
153). -/
inductive Compiler where
  | clang
  | other
  deriving DecidableEq, Repr

/-- `__builtin_rotateleftW` (compiler builtin): rotates by the amount modulo the width
(bit.hpp:136-144). -/
def builtinRotl {w : Nat} (x : BitVec w) (s : Nat) : BitVec w :=
  (x <<< (s % w)) ||| (x >>> (w - s % w))

/-- `__builtin_rotaterightW` (bit.hpp:154-162). -/
def builtinRotr {w : Nat} (x : BitVec w) (s : Nat) : BitVec w :=
  (x >>> (s % w)) ||| (x <<< (w - s % w))

/-- `detail::rotl(x, s)`, bit.hpp:132-149.  In the non-clang version `digits - s` is negative
(narrow
types, computed in `int`) or wraps to a huge amount (unsigned) when `s > digits`; both are
undefined as shift amounts. -/
def detailRotl {w : Nat} (c : Compiler) (x s : BitVec w) : Outcome (BitVec w) :=
  match c with
  | .clang => .ok (builtinRotl x s.toNat)
  | .other => do
    let a ← cshl x s.toNat
    let b ← if s.toNat ≤ w then cshr x (w - s.toNat) else .ub
    return a ||| b

/-- `detail::rotr(x, s)`, bit.hpp:150-167. -/
def detailRotr {w : Nat} (c : Compiler) (x s : BitVec w) : Outcome (BitVec w) :=
  match c with
  | .clang => .ok (builtinRotr x s.toNat)
  | .other => do
    let a ← cshr x s.toNat
    let b ← if s.toNat ≤ w then cshl x (w - s.toNat) else .ub
    return a ||| b

/-- `-s` for an `int`: overflow of the least value is undefined (bit.hpp:177, 189). -/
def negInt (s : Int) : Outcome Int := if s = -2147483648 then .ub else .ok (-s)

/-- `rotl(x, s)`, bit.hpp:170-180; `T(s)` reduces modulo `2^w`. -/
def rotl {w : Nat} (c : Compiler) (x : BitVec w) (s : Int) : Outcome (BitVec w) :=
  if s = 0 then .ok x
  else if s < 0 then do
    let m ← negInt s
    detailRotr c x (BitVec.ofInt w m)
  else detailRotl c x (BitVec.ofInt w s)

/-- `rotr(x, s)`, bit.hpp:182-192. -/
def rotr {w : Nat} (c : Compiler) (x : BitVec w) (s : Int) : Outcome (BitVec w) :=
  if s = 0 then .ok x
  else if s < 0 then do
    let m ← negInt s
    detailRotl c x (BitVec.ofInt w m)
  else detailRotr c x (BitVec.ofInt w s)

/-! ## Counting -/

/-- `__builtin_clz/clzl/clzll` on a `b`-bit type: undefined for zero, else the number of zero bits
above the highest one bit (which is at index `Nat.log2`) (bit.hpp:75-86). -/
def builtinClz {b : Nat} (x : BitVec b) : Outcome Nat :=
  if x = 0#b then .ub else .ok (b - 1 - x.toNat.log2)

/-- Index of the lowest set bit of a non-zero number (used at bit.hpp:96-103). -/
def lowBit (n : Nat) : Nat → Nat
  | 0 => 0
  | fuel + 1 => if n % 2 = 1 then 0 else lowBit (n / 2) fuel + 1

/-- `__builtin_ctz/ctzl/ctzll`: undefined for zero, else the index of the lowest set bit
(bit.hpp:96-103). -/
def builtinCtz {b : Nat} (x : BitVec b) : Outcome Nat :=
  if x = 0#b then .ub else .ok (lowBit x.toNat b)

/-- Number of one bits among the low `k` (used at bit.hpp:121-128). -/
def ones (n : Nat) : Nat → Nat
  | 0 => 0
  | k + 1 => n % 2 + ones (n / 2) k

/-- `__builtin_popcount/l/ll`: number of one bits (bit.hpp:121-128). -/
def builtinPopcount {b : Nat} (x : BitVec b) : Nat := ones x.toNat b

/-- `countl_zero`, bit.hpp:69-88: 32-bit and 64-bit types use a builtin of their own width, narrower
ones are converted to 64 bits and the surplus is subtracted (in `int`). -/
def countlZero {w : Nat} (x : BitVec w) : Outcome Int :=
  if x = 0#w then .ok w
  else if w = 32 ∨ w = 64 then do
    let c ← builtinClz x
    return (c : Int)
  else do
    let c ← builtinClz (x.setWidth 64)
    return (c : Int) + w - 64

/-- `countr_zero`, bit.hpp:90-104. -/
def countrZero {w : Nat} (x : BitVec w) : Outcome Int :=
  if x = 0#w then .ok w
  else if w = 32 ∨ w = 64 then do
    let c ← builtinCtz x
    return (c : Int)
  else do
    let c ← builtinCtz (x.setWidth 64)
    return (c : Int)

/-- `countl_one`, bit.hpp:106-110. -/
def countlOne {w : Nat} (x : BitVec w) : Outcome Int := countlZero (~~~x)

/-- `countr_one`, bit.hpp:112-116. -/
def countrOne {w : Nat} (x : BitVec w) : Outcome Int := countrZero (~~~x)

/-- `popcount`, bit.hpp:118-129. -/
def popcount {w : Nat} (x : BitVec w) : Nat :=
  if w ≤ 32 then builtinPopcount (x.setWidth 32) else builtinPopcount (x.setWidth 64)

/-- `has_single_bit`, bit.hpp:206-210; `x - 1` and `&` are computed in the promoted type, with the
same outcome. -/
def hasSingleBit {w : Nat} (x : BitVec w) : Bool := x != 0#w && (x &&& (x - 1#w)) == 0#w

/-- `bit_width`, bit.hpp:212-216. -/
def bitWidth {w : Nat} (x : BitVec w) : Outcome Int := do
  let c ← countlZero x
  return w - c

/-- `1U << k` on the 32-bit `unsigned int`, then converted to `w` bits: undefined for a negative
amount or one of at least 32 (bit.hpp:224, 233). -/
def oneShl (w : Nat) (k : Int) : Outcome (BitVec w) :=
  if 0 ≤ k ∧ k < 32 then .ok ((1#32 <<< k.toNat).setWidth w) else .ub

/-- `bit_ceil`, bit.hpp:218-225; `x - 1U` has the type `unsigned int` for types of at most 32 bits
and `T` otherwise. -/
def bitCeil {w : Nat} (x : BitVec w) : Outcome (BitVec w) :=
  if x.toNat ≤ 1 then .ok (1#w)
  else if w ≤ 32 then do
    let k ← bitWidth (x.setWidth 32 - 1#32)
    oneShl w k
  else do
    let k ← bitWidth (x - 1#w)
    oneShl w k

/-- `bit_floor`, bit.hpp:227-234. -/
def bitFloor {w : Nat} (x : BitVec w) : Outcome (BitVec w) :=
  if x = 0#w then .ok x
  else do
    let k ← bitWidth x
    oneShl w (k - 1)

end Verif.BitOps
