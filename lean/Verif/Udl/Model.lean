import Verif.Base

/-! # User-defined integer literals (udls.hpp)

Characters are their codes. Failure of a `static_assert` or of a constant expression is `ub`. -/

namespace Verif.Udl

/-- An integer type, `T` of `parse_literal` (udls.hpp:68): signedness and width in bits. -/
structure Ty where
  signed : Bool
  w : Nat
  deriving DecidableEq

/-- `is_digit_sep_v`, udls.hpp:11. -/
def isDigitSep (c : Nat) : Bool := c == 39
/-- `is_decimal_digit_v`, udls.hpp:12-13. -/
def isDecimalDigit (c : Nat) : Bool := decide (c ≥ 48) && decide (c ≤ 57)
/-- `is_octal_digit_v`, udls.hpp:14-15. -/
def isOctalDigit (c : Nat) : Bool := decide (c ≥ 48) && decide (c ≤ 55)
/-- `is_binary_digit_v`, udls.hpp:16-17. -/
def isBinaryDigit (c : Nat) : Bool := decide (c ≥ 48) && decide (c ≤ 49)
/-- `force_lower_case`, udls.hpp:19-20: `static_cast<unsigned char>(C) | 32u`, for `C` from 0 to 127. -/
def forceLowerCase (c : Nat) : Nat := c ||| 32
/-- `is_hex_digit_v`, udls.hpp:21-24. -/
def isHexDigit (c : Nat) : Bool :=
  (decide (c ≥ 48) && decide (c ≤ 57)) || (decide (forceLowerCase c ≥ 97) && decide (forceLowerCase c ≤ 102))

/-- `integral_value_v`, udls.hpp:26-28: an `int`. -/
def integralValue (c : Nat) : Int :=
  if isDecimalDigit c then (c : Int) - 48 else (forceLowerCase c : Int) - 97 + 10

/-- Storing `x`, the exact result of an operation on a `T` and a small `int`, in a `T`: unsigned types wrap; a signed type
of at least 32 bits is its own promoted type, where overflow is undefined (an error in a constant expression); a
narrower signed type is computed in `int` and wraps on assignment (udls.hpp:33-34). -/
def assign (t : Ty) (x : Int) : Outcome Int :=
  if t.signed then
    if t.w < 32 then .ok ((x + 2 ^ (t.w - 1)) % 2 ^ t.w - 2 ^ (t.w - 1))
    else if -2 ^ (t.w - 1) ≤ x ∧ x < 2 ^ (t.w - 1) then .ok x
    else .ub
  else .ok (x % 2 ^ t.w)

/-- `maybe_add_digit<Base, C>(s)`, udls.hpp:30-37. -/
def maybeAddDigit (t : Ty) (base : Int) (c : Nat) (s : Int) : Outcome Int :=
  if !isDigitSep c then do
    let s ← assign t (s * base)
    assign t (s + integralValue c)
  else .ok s

/-- `raw_parser<Base, Cs...>::parse<T>()`, udls.hpp:39-45. -/
def rawParse (t : Ty) (base : Int) : List Nat → Int → Outcome Int
  | [], x => .ok x
  | c :: cs, x => do
    let x ← maybeAddDigit t base c x
    rawParse t base cs x

/-- The `static_assert` of a parser and its `parse`, udls.hpp:47-65. -/
def checked (t : Ty) (base : Int) (isDigit : Nat → Bool) (cs : List Nat) : Outcome Int :=
  if cs.all fun c => isDigit c || isDigitSep c then rawParse t base cs 0 else .ub

/-- `parse_literal<T, Chars...>()`, udls.hpp:51-71: the most specialised `parser` is chosen. -/
def parseLiteral (t : Ty) : List Nat → Outcome Int
  | 48 :: 120 :: cs => checked t 16 isHexDigit cs
  | 48 :: 88 :: cs => checked t 16 isHexDigit cs
  | 48 :: 98 :: cs => checked t 2 isBinaryDigit cs
  | 48 :: 66 :: cs => checked t 2 isBinaryDigit cs
  | 48 :: cs => checked t 8 isOctalDigit cs
  | cs => checked t 10 isDecimalDigit cs

/-- The multiplying literals, udls.hpp:110-134: `unsigned long long` arithmetic, factor by factor. -/
def scale (factors : List Nat) (n : Nat) : Nat := factors.foldl (fun x f => x * f % 18446744073709551616) n

/-- `_k`, `_M`, `_G`, `_ki`, `_Mi`, `_Gi`, udls.hpp:110-134. -/
inductive Unit where
  | k | M | G | ki | Mi | Gi
  deriving DecidableEq

/-- The factors as written, udls.hpp:110-134. -/
def Unit.factors : Unit → List Nat
  | .k => [1000]
  | .M => [1000000]
  | .G => [1000000000]
  | .ki => [1024]
  | .Mi => [1024, 1024]
  | .Gi => [1024, 1024, 1024]

/-- `operator""_k(n)` and the others, udls.hpp:110-134. -/
def unitLiteral (u : Unit) (n : Nat) : Nat := scale u.factors n

/-- `_lsb`, `_msb`, `_len`, udls.hpp:86-96: `static_cast` to an enumeration over `std::uint32_t`. -/
def bitLiteral (n : Nat) : Nat := n % 4294967296

end Verif.Udl
