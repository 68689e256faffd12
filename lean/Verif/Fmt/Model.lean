import Verif.CtString.Model

/-!
# Model of the freestanding `fmt` replacement (/repo/include/stdx/detail/fmt.hpp, `STDX_FREESTANDING`)

A format string is a `ct_string` (array with terminator, see `Verif/CtString/Model.lean`); an output iterator
is a position in the destination array.  Everything runs in constant expressions, so undefined behaviour and
loops that do not end (fuel exhausted, for every fuel) are compilation errors; both are `ub` here.
-/

namespace Verif.Fmt

open CtString

/-- The integral types: `bool`, or a signed or unsigned type of `w` bits.  (`char` has its own
overload.).  The `stdx::integral` types of fmt.hpp:68 and 120. -/
inductive ITy where
  | bool
  | int (w : Nat) (signed : Bool)
  deriving DecidableEq

/-- Least value.  The range of the argument `i` of fmt.hpp:69 and 121. -/
def ITy.lo : ITy → Int
  | .bool => 0
  | .int w s => if s then -(2 ^ (w - 1) : Int) else 0

/-- Greatest value.  The range of the argument `i` of fmt.hpp:69 and 121. -/
def ITy.hi : ITy → Int
  | .bool => 1
  | .int w s => if s then 2 ^ (w - 1) - 1 else 2 ^ w - 1

/-- The values of a type.  The range of the argument `i` of fmt.hpp:69 and 121. -/
def ITy.InRange (t : ITy) (v : Int) : Prop := t.lo ≤ v ∧ v ≤ t.hi

instance (t : ITy) (v : Int) : Decidable (t.InRange v) := inferInstanceAs (Decidable (_ ∧ _))

/-- `static_cast<I>(b)`: nonzero is `true` for `bool`, else reduction modulo `2^w`.  fmt.hpp:80,
134 and 135: `static_cast<I>(s.base)`. -/
def ITy.conv : ITy → Int → Int
  | .bool, b => if b = 0 then 0 else 1
  | .int w s, b => if s then Int.bmod b (2 ^ w) else b % 2 ^ w

/-- `a / c`, truncating; undefined for a zero divisor or an unrepresentable quotient.  fmt.hpp:80
and 135: `i /= …`. -/
def ITy.div (t : ITy) (a c : Int) : Outcome Int :=
  if c = 0 then .ub else if t.InRange (a.tdiv c) then .ok (a.tdiv c) else .ub

/-- `a % c`, with the sign of `a`.  fmt.hpp:134: `i % …`. -/
def ITy.mod (a c : Int) : Outcome Int := if c = 0 then .ub else .ok (a.tmod c)

/-- `fmt_spec`, fmt.hpp:31-35. -/
structure Spec where
  len : Nat
  base : Nat
  deriving DecidableEq

/-- The loop `while (*i != '{') ++i`, fmt.hpp:40-42: the remaining characters from the brace on. -/
def toBrace : List Char → Outcome (List Char)
  | [] => .ub
  | c :: cs => if c = '{' then .ok (c :: cs) else toBrace cs

/-- `parse_fmt_spec`, fmt.hpp:37-50; `none`: not well formed (`static_assert`, 89-92). -/
def parseSpec (fmt : CtString) : Outcome (Option Spec) := do
  let i ← toBrace fmt
  match i.drop 1 with
  | [] => .ub
  | c :: r =>
    if c = '}' then .ok (some ⟨2, 10⟩)
    else if c = ':' then
      match r with
      | [] => .ub
      | d :: r =>
        if d = 'x' then
          match r with
          | [] => .ub
          | e :: _ => if e = '}' then .ok (some ⟨4, 16⟩) else .ok none
        else .ok none
    else .ok none

/-- The values that can be formatted: a range of characters (string, string view, `ct_string`; its
characters),
a C string (the array it points into), a character, or an integer.  The overloads of fmt.hpp:52-69
and 98-121. -/
inductive Val where
  | range (cs : List Char)
  | cstr (arr : List Char)
  | chr (c : Char)
  | num (t : ITy) (v : Int)
  deriving DecidableEq

/-- The digit-counting loop of `formatted_size`, fmt.hpp:78-81. -/
def sizeLoop (t : ITy) (base : Nat) : Nat → Int → Nat → Outcome Nat
  | 0, _, _ => .ub
  | fuel + 1, i, sz =>
    if i = 0 then .ok sz
    else do
      let i ← t.div i (t.conv base)
      sizeLoop t base fuel i (sz + 1)

/-- The scan of the C-string overloads, fmt.hpp:57-64. -/
def cstrSize : List Char → Nat → Outcome Nat
  | [], _ => .ub
  | c :: cs, sz => if c = nul then .ok sz else cstrSize cs (sz + 1)

/-- `detail::formatted_size`, fmt.hpp:52-85. -/
def valSize (fuel : Nat) (s : Spec) : Val → Outcome Nat
  | .range cs => .ok cs.length
  | .cstr a => cstrSize a 0
  | .chr _ => .ok 1
  | .num t i => if i = 0 then .ok 1 else sizeLoop t s.base fuel i (if i < 0 then 1 else 0)

/-- `formatted_size`, fmt.hpp:87-95 (the format string is at least `len` long, so the subtraction
is exact); `none`: ill-formed specifier. -/
def formattedSize (fuel : Nat) (fmt : CtString) (v : Val) : Outcome (Option Nat) := do
  match ← parseSpec fmt with
  | none => .ok none
  | some s =>
    let n ← valSize fuel s v
    return some (size fmt - s.len + n)

/-- `*dest++ = c`.  fmt.hpp:101, 109, 116, 123, 129, 136, 159 and 170. -/
def put (b : List Char × Nat) (c : Char) : Outcome (List Char × Nat) := do
  let buf ← arrSet b.1 b.2 c
  return (buf, b.2 + 1)

/-- Writing a list of characters one by one.  fmt.hpp:100-102. -/
def putAll : List Char × Nat → List Char → Outcome (List Char × Nat)
  | b, [] => .ok b
  | b, c :: cs => do
    let b ← put b c
    putAll b cs

/-- `while (*src) *dest++ = *src++`, fmt.hpp:107-112 and 169-171. -/
def putCstr : List Char × Nat → List Char → Outcome (List Char × Nat)
  | _, [] => .ub
  | b, c :: cs => if c = nul then .ok b else do
    let b ← put b c
    putCstr b cs

/-- `"0123456789abcdef"[n]`, fmt.hpp:126. -/
def toDigit (n : Nat) : Outcome Char := arrGet ("0123456789abcdef".toList ++ [nul]) n

/-- The digit loop, fmt.hpp:133-137: least significant digit first.  `abs` (125) cannot overflow on
a remainder by
10 or 16. -/
def digitLoop (t : ITy) (base : Nat) : Nat → Int → List Char × Nat → Outcome (List Char × Nat)
  | 0, _, _ => .ub
  | fuel + 1, i, b =>
    if i = 0 then .ok b
    else do
      let r ← ITy.mod i (t.conv base)
      let d ← toDigit r.natAbs
      let i ← t.div i (t.conv base)
      let b ← put b d
      digitLoop t base fuel i b

/-- The reversal loop, fmt.hpp:139-144: swaps while `b < e`. -/
def revLoop : Nat → List Char → Nat → Nat → Outcome (List Char)
  | 0, _, _, _ => .ub
  | fuel + 1, buf, b, e =>
    if b < e then do
      let x ← arrGet buf b
      let y ← arrGet buf e
      let buf ← arrSet buf b y
      let buf ← arrSet buf e x
      revLoop fuel buf (b + 1) (e - 1)
    else .ok buf

/-- `detail::format_to`, fmt.hpp:98-147. -/
def valTo (fuel : Nat) (s : Spec) (b : List Char × Nat) : Val → Outcome (List Char × Nat)
  | .range cs => putAll b cs
  | .cstr a => putCstr b a
  | .chr c => put b c
  | .num t i =>
    if i = 0 then put b '0'
    else do
      let b ← if i < 0 then put b '-' else .ok b
      let e ← digitLoop t s.base fuel i b
      let buf ← revLoop fuel e.1 b.2 (e.2 - 1)
      return (buf, e.2)

/-- The copy `while (*src != '{') *dest++ = *src++`, fmt.hpp:157-160; also returns the rest of the
source. -/
def copyToBrace : List Char × Nat → List Char → Outcome ((List Char × Nat) × List Char)
  | _, [] => .ub
  | b, c :: cs => if c = '{' then .ok (b, c :: cs) else do
    let b ← put b c
    copyToBrace b cs

/-- `format_to(dest, fmtstr, v)`, fmt.hpp:151-172; returns the buffer. -/
def formatTo (fuel : Nat) (buf : List Char) (fmt : CtString) (v : Val) : Outcome (Option (List Char)) := do
  match ← parseSpec fmt with
  | none => .ok none
  | some s =>
    let (b, src) ← copyToBrace (buf, 0) fmt
    let b ← valTo fuel s b v
    let b ← putCstr b (src.drop s.len)
    return some b.1

/-- `perform_format<formatted_size(...)>` of ct_format.hpp:326-331 (called at 342-343 and 349-350):
a zeroed
`ct_string<sz + 1>` filled by `format_to`. -/
def performFormat (fuel : Nat) (fmt : CtString) (v : Val) : Outcome (Option CtString) := do
  match ← formattedSize fuel fmt v with
  | none => .ok none
  | some sz => formatTo fuel (zeroed (sz + 1)) fmt v

end Verif.Fmt
