import Verif.Rollover.Model

/-!
# Types of `rollover_t`: its common types, and `rollover_t<bool>` (/repo/include/stdx/rollover.hpp)

`std::common_type_t` of two integer types is the one type if they are the same, and otherwise the type of a conditional
expression with operands of the two types, which is given by the usual arithmetic conversions of the language.  They are
modelled for any integer conversion ranks and widths.  Simplified: the character types (`char8_t` and so on) count as
the integer types they are promoted like.
-/

namespace Verif.Rollover

/-- An integer type of the language: `bool`, or a signed or unsigned type with its conversion rank. -/
inductive ITy where
  | bool
  | int (signed : Bool) (rank : Nat)
  deriving DecidableEq

/-- A platform: the width of the types of each rank, and the rank of `int`.  A type of a higher rank is not narrower. -/
structure Platform where
  width : Nat → Nat
  intRank : Nat
  mono : ∀ a b, a ≤ b → width a ≤ width b
  pos : ∀ a, 8 ≤ width a

variable (P : Platform)

/-- The integral promotions, applied by the conditional operator of `std::common_type` (rollover.hpp:144-152). -/
def promote : ITy → ITy
  | .bool => .int true P.intRank
  | .int s r =>
    if r < P.intRank then
      if s || P.width r < P.width P.intRank then .int true P.intRank else .int false P.intRank
    else .int s r

/-- The usual arithmetic conversions on promoted types (rollover.hpp:144-152). -/
def balance : ITy → ITy → ITy
  | .int s r, .int t q =>
    if s = t then .int s (max r q)
    else
      let u := if s then q else r
      let g := if s then r else q
      if g ≤ u then .int false u
      else if P.width u < P.width g then .int true g
      else .int false g
  | a, _ => a

/-- `std::common_type_t` of two integer types, as used in rollover.hpp:146,152. -/
def commonInt (a b : ITy) : ITy := if a = b then a else balance P (promote P a) (promote P b)

/-- `std::make_unsigned_t`, rollover.hpp:152; there is none for `bool`. -/
def makeUnsigned : ITy → Option ITy
  | .bool => none
  | .int _ r => some (.int false r)

/-- `unsigned_integral`, the static assertion of `rollover_t`, rollover.hpp:11-12. -/
def isUnsigned : ITy → Bool
  | .bool => true
  | .int s _ => !s

/-- An operand of `std::common_type`: `rollover_t<T>` or an integer type. -/
inductive RArg where
  | rollover (t : ITy)
  | integer (t : ITy)
  deriving DecidableEq

/-- The `T` of the `rollover_t<T>` that `std::common_type` of the two types names, rollover.hpp:144-153; `none` if it names
nothing.  The type may be one that cannot be used, see `usable`. -/
def commonType : RArg → RArg → Option ITy
  | .rollover t, .rollover u => some (commonInt P t u)
  | .rollover t, .integer i => do
    let u ← makeUnsigned i
    return commonInt P t u
  -- not specialised, and an integer is not implicitly converted to a `rollover_t` or back (16-17, 25)
  | .integer _, .rollover _ => none
  | .integer _, .integer _ => none

/-- `rollover_t<T>` can be instantiated: its static assertion, rollover.hpp:11-12. -/
def usable : Option ITy → Bool
  | some t => isUnsigned t
  | none => false

/-- The number of bits of the values of a type. -/
def ITy.bits : ITy → Nat
  | .bool => 1
  | .int _ r => P.width r

/-- Conversion of a `std::chrono::duration` of `rollover_t<T>` ticks to one with ticks `k` times as short and the same `T`, as
the standard library does it with the common type (rollover.hpp:144-153) of the counts and `std::intmax_t`, of rank `m`:
`static_cast<rollover_t<T>>(static_cast<CR>(count) * static_cast<CR>(k))`.  `none` if the type `CR` cannot be used. -/
def durationCast (t : ITy) (m : Nat) (k : Int) (x : BitVec (t.bits P)) : Option (Outcome (BitVec (t.bits P))) :=
  match commonType P (.rollover t) (.integer (.int true m)) with
  | some c =>
    if usable (some c) then
      some do
        let y ← mul (ofRollover (c.bits P) x) (ofInteger (c.bits P) k)
        return ofRollover (t.bits P) y
    else none
  | none => none

/-! ## `rollover_t<bool>` -/

/-- Conversion of an exact result, of type `int`, to `bool`: it compares with zero (rollover.hpp:31,47,51,55,59,63). -/
def toBool (z : Int) : Bool := z ≠ 0

/-- A `bool` operand, promoted to `int`. -/
def bval (x : Bool) : Int := if x then 1 else 0

/-- Operations of `rollover_t<bool>`. -/
inductive BOp where
  | add | sub | mul | div | mod
  deriving DecidableEq

/-- The binary operators and compound assignments for `T = bool`, rollover.hpp:46-65, 104-133. -/
def bbin : BOp → Bool → Bool → Outcome Bool
  | .add, x, y => .ok (toBool (bval x + bval y))
  | .sub, x, y => .ok (toBool (bval x - bval y))
  | .mul, x, y => .ok (toBool (bval x * bval y))
  | .div, x, y => if y = false then .ub else .ok (toBool ((bval x).tdiv (bval y)))
  | .mod, x, y => if y = false then .ub else .ok (toBool ((bval x).tmod (bval y)))

/-- Unary minus for `T = bool`, rollover.hpp:30-32. -/
def bneg (x : Bool) : Bool := toBool (-(bval x))

/-- `rollover_t<bool>(u)` for an integer, rollover.hpp:16-17. -/
def bofInteger (u : Int) : Bool := toBool u

/-- `++` and `--`, rollover.hpp:34-44: the language has none for `bool`, so the functions do not compile. -/
def bincCompiles : Bool := false

/-- `cmp_less` for `T = bool`, rollover.hpp:98-102: `~false` is `-1`, which converts to `true`. -/
def bcmpLess (x y : Bool) : Bool :=
  (bval (toBool (-1))).tdiv 2 < bval (toBool (bval x - bval y))

end Verif.Rollover
