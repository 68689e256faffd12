import Verif.CtString.Model

/-!
# Model of `stdx::ct_format` (/repo/include/stdx/ct_format.hpp)

At this level a compile-time string is its list of characters (that `ct_string` keeps a terminator and `+`
concatenates is C54).  Iterators into the format string are positions.  `ub` means that the call does not
compile (an out-of-bounds access in a constant expression, or a failed `static_assert`).

The formatting library (`fmt::format_to`: fmtlib, or `detail/fmt.hpp` when freestanding) is the parameter `F`:
`F.val s v` and `F.str s x` are the results of formatting the value `v` (the string `x`) with the format
string `s`, `none` when that does not compile.

Simplifications: here a compile-time argument is the value handed to the formatter.  `format_as`, the conversion of
enumerators, types and wrapped values to what is formatted (`arg_value`, ct_format.hpp:233-260), and the `Output`
conversion (316-324) are modelled on top of this in `Verif.CtFormat.Args`.  A `format_result` argument gives the same result whether it
is a compile-time value (339-346) or not (357-362), so there is one constructor for it.  Types in
`named_arg` are omitted.
-/

namespace Verif.CtFormat

/-- The formatting library.  It is called at ct_format.hpp:329, 341-342 and 348-349. -/
structure Formatter (κ : Type) where
  val : List Char → κ → Option (List Char)
  str : List Char → List Char → Option (List Char)

/-! ## Finding the replacement fields -/

/-- `std::find(first, last, c)` from position `i`.  The calls are at ct_format.hpp:127-128 and 168.
-/
def stdFind (fmt : List Char) (i : Nat) (c : Char) : Nat := i + (fmt.drop i).findIdx (· == c)

/-- The loop of `find_spec`, ct_format.hpp:127-136, at `spec_start = p`. -/
def findSpecLoop (fmt : List Char) : Nat → Nat → Outcome Nat
  | 0, _ => .ub
  | fuel + 1, p =>
    if p = fmt.length then .ok p
    else if p + 1 ≠ fmt.length then do
      let c ← arrGet fmt (p + 1)
      if c ≠ '{' then .ok p else findSpecLoop fmt fuel (stdFind fmt (p + 2) '{')
    else findSpecLoop fmt fuel (stdFind fmt (p + 1) '{')

/-- `find_spec(first, last)`, ct_format.hpp:126-138, from position `i`. -/
def findSpec (fmt : List Char) (i : Nat) : Outcome Nat := findSpecLoop fmt (fmt.length + 1) (stdFind fmt i '{')

/-- The loop of `count_specifiers`, ct_format.hpp:142-146. -/
def countLoop (fmt : List Char) : Nat → Nat → Nat → Outcome Nat
  | 0, _, _ => .ub
  | fuel + 1, p, count =>
    if p = fmt.length then .ok count
    else do
      let p ← findSpec fmt (p + 1)
      countLoop fmt fuel p (count + 1)

/-- `count_specifiers(fmt)`, ct_format.hpp:140-148 (and `num_fmt_specifiers`, 438-440). -/
def countSpecifiers (fmt : List Char) : Outcome Nat := do
  let p ← findSpec fmt 0
  countLoop fmt (fmt.length + 1) p 0

/-- `split_spec`, ct_format.hpp:150-157. -/
structure Split where
  view : List Char
  start : Nat
  deriving DecidableEq

/-- `std::string_view{first, last}`.  ct_format.hpp:173 and 179. -/
def slice (fmt : List Char) (a b : Nat) : List Char := (fmt.drop a).take (b - a)

/-- The loop of `split_specifiers`, ct_format.hpp:166-177; returns the array, `count` and
`split_start`. -/
def splitLoop (fmt : List Char) : Nat → List Split → Nat → Nat → Nat → Outcome (List Split × Nat × Nat)
  | 0, _, _, _, _ => .ub
  | fuel + 1, splits, count, start, spec =>
    if spec = fmt.length then .ok (splits, count, start)
    else do
      let e := stdFind fmt spec '}'
      let e := if e ≠ fmt.length then e + 1 else e
      let splits ← arrSet splits count ⟨slice fmt start e, spec - start⟩
      let spec ← findSpec fmt e
      splitLoop fmt fuel splits (count + 1) e spec

/-- `split_specifiers<N>(fmt)`, ct_format.hpp:159-183. -/
def splitSpecifiers (n : Nat) (fmt : List Char) : Outcome (List Split) := do
  let p ← findSpec fmt 0
  let (splits, count, start) ← splitLoop fmt (fmt.length + 1) (List.replicate n ⟨[], 0⟩) 0 0 p
  arrSet splits count ⟨slice fmt start fmt.length, fmt.length - start⟩

/-- The scan for `':'`, ct_format.hpp:187-194, over the characters and the terminator from
`nameStart` on; an
iterator past the end of the array is undefined. -/
def findColon (s : List Char) (nameStart : Nat) : Outcome (Option Nat) :=
  if nameStart ≤ s.length + 1 then
    let k := stdFind (s ++ [CtString.nul]) nameStart ':'
    if k = s.length + 1 then .ok none else .ok (some k)
  else .ub

/-- `ct_string<n + 1>{S.value.cbegin() + a, n}`, reading inside the array.  ct_format.hpp:207-211
and 221-225. -/
def part (s : List Char) (a n : Nat) : Outcome (List Char) :=
  if a + n ≤ s.length + 1 then .ok (((s ++ [CtString.nul]).drop a).take n) else .ub

/-- `extract_format1_str<S, Start>()`, ct_format.hpp:185-227: the format string without the name,
and the name.
The sizes are `size_t` computations; where they would wrap, the strings would not fit and this is
`ub`. -/
def extract (s : List Char) (start : Nat) : Outcome (List Char × List Char) := do
  let nameStart := start + 1
  match ← findColon s nameStart with
  | none =>
    if s.length < 2 ∨ s.length - 1 < nameStart then .ub
    else if start = s.length - 2 then .ok (s, [])
    else do
      let a ← part s 0 nameStart
      let b ← part s (s.length - 1) 1
      let name ← part s nameStart (s.length - 1 - nameStart)
      return (a ++ b, name)
  | some k => do
    let a ← part s 0 nameStart
    let b ← part s k (s.length - k)
    let name ← part s nameStart (k - nameStart)
    return (a ++ b, name)

/-! ## Results -/

/-- `named_arg`, ct_format.hpp:29-51. -/
structure Named where
  name : List Char
  first : Int
  last : Int
  deriving DecidableEq

/-- `is_runtime`, ct_format.hpp:36. -/
def Named.isRuntime (n : Named) : Bool := n.last < n.first

/-- `apply_offset`, ct_format.hpp:38-46. -/
def Named.offset (str arg : Nat) (n : Named) : Named :=
  if n.isRuntime then ⟨n.name, n.first + arg, n.last + arg⟩ else ⟨n.name, n.first + str, n.last + str⟩

/-- `format_result`, ct_format.hpp:66-109; `ρ` is the type of runtime values. -/
structure Result (ρ : Type) where
  str : List Char
  args : List ρ
  named : List Named
  deriving DecidableEq

variable {κ ρ : Type}

/-- `operator+` on two results, ct_format.hpp:287-300. -/
def Result.add (a b : Result ρ) : Result ρ :=
  ⟨a.str ++ b.str, a.args ++ b.args, a.named ++ b.named.map (Named.offset a.str.length a.args.length)⟩

/-- The arguments of a call.  The cases of `format1`, ct_format.hpp:335, 357 and 363.  `tup` is a runtime argument of type
`stdx::tuple`: there `tuple{std::move(arg)}` (367, 369) is a copy of it (the copy deduction candidate), not a tuple of
one element. -/
inductive Arg (κ ρ : Type) where
  | ct (v : κ)
  | rt (r : ρ)
  | tup (rs : List ρ)
  | res (r : Result ρ)

/-- `format1<Fmt, Name, Start>(arg)`, ct_format.hpp:333-372. -/
def format1 (F : Formatter κ) (fmt name : List Char) (start : Nat) : Arg κ ρ → Outcome (Result ρ)
  | .ct v =>
    match F.val fmt v with
    | some s =>
      if name ≠ [] then .ok ⟨s, [], [⟨name, start, s.length⟩]⟩ else .ok ⟨s, [], []⟩
    | none => .ub
  | .res r =>
    match F.str fmt r.str with
    | some s => .ok ⟨s, r.args, r.named.map (Named.offset start 0)⟩
    | none => .ub
  | .rt r => if name ≠ [] then .ok ⟨fmt, [r], [⟨name, 0, -1⟩]⟩ else .ok ⟨fmt, [r], []⟩
  | .tup rs => if name ≠ [] then .ok ⟨fmt, rs, [⟨name, 0, -1⟩]⟩ else .ok ⟨fmt, rs, []⟩

/-- The right fold over the arguments, ct_format.hpp:427-431, with the `format1` of 418-425. -/
def foldArgs (F : Formatter κ) (splits : List Split) (last : Result ρ) : Nat → List (Arg κ ρ) → Outcome (Result ρ)
  | _, [] => .ok last
  | i, a :: as => do
    let s ← arrGet splits i
    let (f, name) ← extract s.view s.start
    let x ← format1 F f name s.start a
    let y ← foldArgs F splits last (i + 1) as
    return x.add y

/-- `ct_format<Fmt>(args...)`, ct_format.hpp:405-436, with `fmt_data` (381-387). -/
def ctFormat (F : Formatter κ) (fmt : List Char) (args : List (Arg κ ρ)) : Outcome (Result ρ) := do
  let n ← countSpecifiers fmt
  let splits ← splitSpecifiers (n + 1) fmt
  let last ← arrGet splits n
  if n ≠ args.length then .ub
  else foldArgs F splits ⟨last.view, [], []⟩ 0 args

end Verif.CtFormat
