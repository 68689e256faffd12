import Verif.CtFormat.Model

/-!
# The forms an argument of `stdx::ct_format` can take (/repo/include/stdx/ct_format.hpp:229-372, 389-436)

`Verif.CtFormat.Model` starts from arguments already sorted into values to format now, values to keep for later and
results.  Here is the sorting: the concept `fmt_cx_value`, the overloads of `arg_value`, the three branches of
`format1`, `format_as`, the `Output` conversion and the conversion of a result to a `ct_string`.

`κ` are the values of types that have none of the marks the code looks for, `ε` the enumerators, `τ` the types.
`enum_as_string` and `type_as_string` (C84, C83) are parameters.  `ub` means that the call does not compile.
-/

namespace Verif.CtFormat

/-- A `format_result`: what `Result` says, and whether its string is a `cts_t` or (`asType`) a type
`Output<char, Cs...>`.  ct_format.hpp:66-109. -/
structure FR (α : Type) where
  res : Result α
  asType : Bool
  deriving DecidableEq

/-- An object whose type carries no compile-time value: ct_format.hpp:363-371 keeps it for run time. -/
inductive Obj (κ ε : Type) where
  | val (v : κ)
  | enumerator (e : ε)
  deriving DecidableEq

/-- The arguments: an object; a `stdx::tuple` of objects, of value `v` as a whole; `std::integral_constant` of a value or of an enumerator (ct_format.hpp:233-240);
`type_identity` (242-244); `cts_t` (246); a type `T<char, Cs...>` (`ct_string_from_type`, ct_string.hpp:87-90);
a `format_result`; and a callable marked `cx_value_t` whose call yields an argument (`CX_VALUE`,
utility.hpp:323-340).  Simplified: the result of a call of a `CX_VALUE` is a constant, so an `obj` below a `cx` is a
constant too. -/
inductive Form (κ ε τ : Type) where
  | obj (o : Obj κ ε)
  | tup (v : κ) (os : List (Obj κ ε))
  | constant (o : Obj κ ε)
  | type (t : τ)
  | cts (s : List Char)
  | seq (s : List Char)
  | result (r : FR (Obj κ ε))
  | cx (f : Form κ ε τ)

variable {κ ε τ : Type}

/-- What `arg_value` returns (ct_format.hpp:233-260): a value to format, a string to format, or a `format_result`. -/
inductive ArgVal (κ ε : Type) where
  | val (v : κ)
  | str (s : List Char)
  | result (r : FR (Obj κ ε))

/-- `enum_as_string` and `type_as_string` (ct_conversions.hpp, C84 and C83), as used at
ct_format.hpp:236, 243 and 256. -/
structure Names (ε τ : Type) where
  enumName : ε → List Char
  typeName : τ → List Char

/-- The specialisation of `format_result` that is itself a compile-time value: no runtime arguments and a string that
is a compile-time value, ct_format.hpp:92-104. -/
def FR.isCx (r : FR α) : Bool := r.res.args.isEmpty && !r.asType

/-- Whether a type has the member `cx_value_t`: `is_cx_value_v`, type_traits.hpp:213-215; `cts_t` has it
(ct_string.hpp:146), `format_result` when `isCx` (ct_format.hpp:104), `CX_VALUE` (utility.hpp:232). -/
def isCxValue : Form κ ε τ → Bool
  | .cts _ | .cx _ => true
  | .result r => r.isCx
  | _ => false

/-- `ct_string_from_type(a)`, ct_string.hpp:87-90: for `T<char, Cs...>` only. -/
def fromType : Form κ ε τ → Option (List Char)
  | .seq s => some s
  | _ => none

/-- The concept `fmt_cx_value`, ct_format.hpp:229-231. -/
def fmtCxValue (f : Form κ ε τ) : Bool := isCxValue f || (fromType f).isSome

/-- What `arg_value(a)` returns for a callable `a` whose call yields `f` when `arg_value(a())` is not viable,
ct_format.hpp:253-259. -/
def callValue (N : Names ε τ) : Form κ ε τ → Option (ArgVal κ ε)
  | .obj (.enumerator e) => some (.str (N.enumName e))
  | .obj (.val v) => some (.val v)
  | .tup v _ => some (.val v)
  | .result r => some (.result r)
  | _ => none

/-- The overloads of `arg_value`, ct_format.hpp:233-260; `none` when none is viable. -/
def argValue (N : Names ε τ) : Form κ ε τ → Option (ArgVal κ ε)
  | .constant (.val v) => some (.val v)
  | .constant (.enumerator e) => some (.str (N.enumName e))
  | .type t => some (.str (N.typeName t))
  | .cts s => some (.str s)
  | .obj _ => none
  | .tup _ _ => none
  | .result r => if fmtCxValue (.result r : Form κ ε τ) then some (.result r) else none
  | .seq s => if fmtCxValue (.seq s : Form κ ε τ) then (fromType (.seq s : Form κ ε τ)).map .str else none
  | .cx f =>
    if fmtCxValue (.cx f : Form κ ε τ) then
      match argValue N f with
      | some v => some v
      | none => callValue N f
    else none

/-- The named-argument list of a formatted value, ct_format.hpp:350-355. -/
def nameInfo (name : List Char) (start sz : Nat) : List Named :=
  if name ≠ [] then [⟨name, start, sz⟩] else []

/-- The compile-time branch of `format1`, ct_format.hpp:335-356.  `convert_input` (308-314) turns either kind of
string into its characters. -/
def format1Value (F : Formatter κ) (fmt name : List Char) (start : Nat) : ArgVal κ ε → Outcome (Result (Obj κ ε))
  | .val v =>
    match F.val fmt v with
    | some s => .ok ⟨s, [], nameInfo name start s.length⟩
    | none => .ub
  | .str x =>
    match F.str fmt x with
    | some s => .ok ⟨s, [], nameInfo name start s.length⟩
    | none => .ub
  | .result r =>
    match F.str fmt r.res.str with
    | some s => .ok ⟨s, r.res.args, r.res.named.map (Named.offset start 0)⟩
    | none => .ub

/-- The member `str` of a result, as an argument: ct_format.hpp:71, 358. -/
def FR.strForm (r : FR (Obj κ ε)) : Form κ ε τ := if r.asType then .seq r.res.str else .cts r.res.str

/-- Whether `arg_value(arg)` can initialise the `constexpr` variable at ct_format.hpp:337.  `arg` is a parameter, so its
value is not known: a result with runtime arguments, or an object, cannot be copied there. -/
def readable : Form κ ε τ → Bool
  | .obj _ => false
  | .tup _ _ => false
  | .result r => r.res.args.isEmpty
  | _ => true

/-- `format1<Fmt, Name, Start>(arg)`, ct_format.hpp:333-372.  For a `stdx::tuple`, `tuple{std::move(arg)}` is a copy of it
(the copy deduction candidate). -/
def format1Form (F : Formatter κ) (N : Names ε τ) (fmt name : List Char) (start : Nat) (f : Form κ ε τ) :
    Outcome (Result (Obj κ ε)) :=
  match argValue N f with
  | some v => if readable f then format1Value F fmt name start v else .ub
  | none =>
    match f with
    | .result r =>
      match argValue N (r.strForm : Form κ ε τ) with
      | some v => do
        let sub ← format1Value F fmt [] start v
        return ⟨sub.str, r.res.args, r.res.named.map (Named.offset start 0)⟩
      | none => .ub
    | .obj o => .ok ⟨fmt, [o], if name ≠ [] then [⟨name, 0, -1⟩] else []⟩
    | .tup _ os => .ok ⟨fmt, os, if name ≠ [] then [⟨name, 0, -1⟩] else []⟩
    | _ => .ub

/-- `format_as`, ct_format.hpp:389-402: the user's `ct_format_as` when there is one for the argument, else the argument
itself. -/
def formatAs (custom : Form κ ε τ → Option (Form κ ε τ)) (f : Form κ ε τ) : Form κ ε τ :=
  match custom f with
  | some g => g
  | none => f

/-- The right fold over the arguments, ct_format.hpp:418-431. -/
def foldForms (F : Formatter κ) (N : Names ε τ) (custom : Form κ ε τ → Option (Form κ ε τ)) (splits : List Split)
    (last : Result (Obj κ ε)) : Nat → List (Form κ ε τ) → Outcome (Result (Obj κ ε))
  | _, [] => .ok last
  | i, a :: as => do
    let s ← arrGet splits i
    let (f, name) ← extract s.view s.start
    let x ← format1Form F N f name s.start (formatAs custom a)
    let y ← foldForms F N custom splits last (i + 1) as
    return x.add y

/-- `ct_format<Fmt, Output>(args...)`, ct_format.hpp:405-436; `asType` when an `Output` is given (`convert_output`,
316-324). -/
def ctFormatForms (F : Formatter κ) (N : Names ε τ) (custom : Form κ ε τ → Option (Form κ ε τ)) (asType : Bool)
    (fmt : List Char) (args : List (Form κ ε τ)) : Outcome (FR (Obj κ ε)) := do
  let n ← countSpecifiers fmt
  let splits ← splitSpecifiers (n + 1) fmt
  let last ← arrGet splits n
  if n ≠ args.length then .ub
  else do
    let r ← foldForms F N custom splits ⟨last.view, [], []⟩ 0 args
    return ⟨r, asType⟩

/-- Unary `operator+` of a result, ct_format.hpp:75-85 and 101: a `ct_string`, when there are no runtime arguments;
otherwise a failed `static_assert`.  Simplified: for a string of the other kind this is `+` of that type, taken to
be the string too. -/
def FR.plus (r : FR α) : Outcome (List Char) := if r.res.args.length = 0 then .ok r.res.str else .ub

end Verif.CtFormat
