import Verif.Base

/-!
# Model of `ct_conversions.hpp` and `is_same_template_v`

The functions cut a name out of `__PRETTY_FUNCTION__`; that text is a parameter here.  It is the compiler's: what is assumed
about its shape is said in the theorems.
-/

namespace Verif.TypeName

/-- The search of the standard library's `rfind` (ct_conversions.hpp:24) and `find_last_of` (47, 56, 63), downwards from position `i`. -/
def rfindFrom (s : List Char) (c : Char) : Nat → Option Nat
  | 0 => if s[0]? = some c then some 0 else none
  | i + 1 => if s[i + 1]? = some c then some (i + 1) else rfindFrom s c i

/-- `s.rfind(c, pos)`, used at ct_conversions.hpp:24; `none` is `npos`. -/
def rfind (s : List Char) (c : Char) (pos : Nat) : Option Nat :=
  if s.length = 0 then none else rfindFrom s c (min pos (s.length - 1))

/-- `s.find_last_of(c)`, used at ct_conversions.hpp:47, 56 and 63. -/
def findLastOf (s : List Char) (c : Char) : Option Nat := if s.length = 0 then none else rfindFrom s c (s.length - 1)

/-- `s.substr(lhs, rhs - lhs + 1)`, ct_conversions.hpp:25, 50; a start behind the end throws, and a count that wraps below zero means everything. -/
def substr (s : List Char) (lhs rhs : Nat) : Outcome (List Char) :=
  if lhs > s.length then .ub
  else if lhs ≤ rhs + 1 then .ok ((s.drop lhs).take (rhs + 1 - lhs)) else .ok (s.drop lhs)

/-- `type_as_string<Tag>()`, ct_conversions.hpp:11-26, for the pretty function name `fn`, with `k` the 2 (Clang) or 51 (GCC) in
`function_name.size() - k`; `npos + 2` is 1. -/
def typeAsString (k : Nat) (fn : List Char) : Outcome (List Char) :=
  if fn.length < k then .ub
  else
    let rhs := fn.length - k
    let lhs := match rfind fn '=' rhs with
      | some p => p + 2
      | none => 1
    substr fn lhs rhs

/-- `template_base<T>()`, ct_conversions.hpp:28-33, for the type name `t`; without a `<`, `substr(0, npos)` is all of it. -/
def templateBase (t : List Char) : List Char := t.takeWhile (· ≠ '<')

/-- `is_same_template_v<T, U>`, type_traits.hpp:323-324. -/
def isSameTemplate (t u : List Char) : Bool := templateBase t == templateBase u

/-- `qual_str`, ct_conversions.hpp:45-53. -/
def qualStr (fn : List Char) : Outcome (List Char) :=
  if fn.length < 2 then .ub
  else
    let rhs := fn.length - 2
    match findLastOf fn '=' with
    | some p => substr fn (p + 2) rhs
    | none => .ok fn

/-- `cast_str`, ct_conversions.hpp:55-69: reading behind the end of `qual_str` is not a constant expression. -/
def castStr (q : List Char) : Outcome (List Char) :=
  let rest : Outcome (List Char) := match findLastOf q ':' with
    | some p => .ok (q.drop (p + 1))
    | none => .ok q
  match findLastOf q ')' with
  | some p =>
    match q[p + 1]? with
    | none => .ub
    | some c => if c ≠ ':' then .ok q else rest
  | none => rest

/-- `enum_as_string<Value>()`, ct_conversions.hpp:35-72. -/
def enumAsString (fn : List Char) : Outcome (List Char) := do
  let q ← qualStr fn
  castStr q

end Verif.TypeName
