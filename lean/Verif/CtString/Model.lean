import Verif.Base

/-!
# Model of `stdx::ct_string<N>` (/repo/include/stdx/ct_string.hpp)

A `ct_string<N>` is its array `value` of `N` characters (ct_string.hpp:74), the terminator included; `N` is the
length of the list.  Characters are Lean `Char`s (a superset of the 8-bit `char`).  The code runs in
constant expressions, where undefined behaviour is a compilation error; it is the outcome `ub` here.
-/

namespace Verif.CtString

/-- `'\0'`. -/
def nul : Char := Char.ofNat 0

/-- `ct_string<N>`: the array `value`, ct_string.hpp:74. -/
abbrev CtString := List Char

/-- The loop `for (i = 0; i < n; ++i) dst[i + off] = src[i]` of the constructors (ct_string.hpp:31-36 and
41-46, `off = 0`) and of `operator+` (127-134): `i` is the loop variable, `n` the iterations left. -/
def copyLoop (off : Nat) (src : List Char) : List Char → Nat → Nat → Outcome (List Char)
  | dst, _, 0 => .ok dst
  | dst, i, n + 1 => do
    let c ← arrGet src i
    let dst ← arrSet dst (i + off) c
    copyLoop off src dst (i + 1) n

/-- `ct_string<N>()`, ct_string.hpp:28: value-initialised array. -/
def zeroed (n : Nat) : CtString := List.replicate n nul

/-- `ct_string(char const (&str)[N])`, ct_string.hpp:31-36. -/
def ofArray (str : List Char) : Outcome CtString := copyLoop 0 str (zeroed str.length) 0 str.length

/-- `ct_string<N>(char const *str, size_t sz)`, ct_string.hpp:41-46 (and from a `string_view`, 48-49); `str`
points to the start of the given characters. -/
def ofPtrSize (n : Nat) (str : List Char) (sz : Nat) : Outcome CtString := copyLoop 0 str (zeroed n) 0 sz

/-- `size()`, ct_string.hpp:67: `N - 1U`. -/
def size (s : CtString) : Nat := szDec s.length

/-- `empty()`, ct_string.hpp:68. -/
def empty (s : CtString) : Bool := s.length == 1

/-- `operator std::string_view`, ct_string.hpp:70-72, as the list of the characters viewed. -/
def view (s : CtString) : Outcome (List Char) := if size s ≤ s.length then .ok (s.take (size s)) else .ub

/-- Iterating from `begin()` to `end()`, ct_string.hpp:51-58: `[value.begin(), value.end() - 1)`. -/
def iterate (s : CtString) : Outcome (List Char) := if s.length = 0 then .ub else .ok (s.take (s.length - 1))

/-- Iterating from `rbegin()` to `rend()`, ct_string.hpp:59-64: `++value.rbegin()`. -/
def iterateRev (s : CtString) : Outcome (List Char) := if s.length = 0 then .ub else .ok (s.reverse.drop 1)

/-- `operator==`, ct_string.hpp:80-85: equality of the string views. -/
def eq (a b : CtString) : Outcome Bool := do
  let x ← view a
  let y ← view b
  return x == y

/-- `ct_string_from_type(T<char, Cs...>)`, ct_string.hpp:87-90: `ct_string<n + 1>{{Cs..., 0}}`. -/
def fromType (cs : List Char) : Outcome CtString := ofArray (cs ++ [nul])

/-- `ct_string_to_type<S, T>()`, ct_string.hpp:92-97: the first `S.size()` characters, by `std::get`. -/
def toType (s : CtString) : Outcome (List Char) := go 0 (size s)
where
  go (i : Nat) : Nat → Outcome (List Char)
    | 0 => .ok []
    | n + 1 => do
      let c ← arrGet s i
      let r ← go (i + 1) n
      return c :: r

/-- The scan of `split`, ct_string.hpp:103-110: the index of the first `c` in the array, terminator included. -/
def scan (c : Char) : List Char → Nat → Option Nat
  | [], _ => none
  | x :: xs, i => if x = c then some i else scan c xs (i + 1)

/-- `split<S, C>()`, ct_string.hpp:102-121. -/
def split (s : CtString) (c : Char) : Outcome (CtString × CtString) :=
  match scan c s 0 with
  | none => .ok (s, [nul])
  | some prefixSize => do
    let suffixSize := (size s + szMod - prefixSize) % szMod
    let a ← ofPtrSize (prefixSize + 1) s prefixSize
    let b ← ofPtrSize suffixSize (s.drop (prefixSize + 1)) (szDec suffixSize)
    return (a, b)

/-- `operator+`, ct_string.hpp:123-137 (`N - 1` in the index `i + N - 1` is computed first; the same for `N ≥ 1`).  `cts_t` and its operators (139-168) call this one. -/
def concat (a b : CtString) : Outcome CtString := do
  let r := zeroed (szDec (a.length + b.length))
  let r ← copyLoop 0 a r 0 (size a)
  copyLoop (szDec a.length) b r 0 (size b)

end Verif.CtString
