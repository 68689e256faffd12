/-!
# Model of the macros `STATIC_ASSERT` (/repo/include/stdx/static_assert.hpp) and `STDX_PANIC` (/repo/include/stdx/panic.hpp)

The macros work on tokens: the preprocessor splits the text between the parentheses of the call at commas, and the
compiler reads the result.  Modelled are the splitting of the arguments, the search for the `>` that ends the template
argument list in which the condition is put, and the pasting of `_cts` to the message; the meaning of an expression and
the formatting of a message (C56, C100) are parameters.
-/

namespace Verif.Macro

/-- Tokens as far as the macros (static_assert.hpp:31-50, panic.hpp:32-36) can tell them apart.  `langle` is a `<` that
follows the name of a template and so begins a list of template arguments, `word` is every token that is not listed
(names, numbers, other operators, a `<` that means less). -/
inductive Tok where
  | word (s : String)
  | str (s : String)
  | lpar | rpar | lsq | rsq | lbrace | rbrace
  | langle | gt | shr | comma
  deriving DecidableEq, Repr

/-- What the parameter `cond` of `STATIC_ASSERT(cond, ...)` (static_assert.hpp:31 and 45) and `MSG` of `STDX_PANIC(MSG, ...)` (panic.hpp:32)
take of the text `toks`, and what is left for `__VA_ARGS__`, `none` if there is no comma: a comma inside parentheses
does not separate arguments, one inside other brackets does.  `d` counts the open parentheses. -/
def firstArg : Nat → List Tok → List Tok × Option (List Tok)
  | _, [] => ([], none)
  | 0, .comma :: ts => ([], some ts)
  | d, .lpar :: ts => let r := firstArg (d + 1) ts; (.lpar :: r.1, r.2)
  | d, .rpar :: ts => let r := firstArg (d - 1) ts; (.rpar :: r.1, r.2)
  | d, t :: ts => let r := firstArg d ts; (t :: r.1, r.2)

/-- Opened brackets that are not closed yet, in the text `operator()<cond>()` of static_assert.hpp:40 and 50. -/
inductive Br where
  | par | sq | brace | angle
  deriving DecidableEq, Repr

/-- Reading the template argument list of `operator()<cond>()`, static_assert.hpp:40 and 50, from behind its `<`: the first `>` that is not
inside other brackets ends it, and `>>` counts as two `>` there.  The result is what is before and behind that `>`;
`none` if there is none or brackets do not match. -/
def closeAngle : List Br → List Tok → Option (List Tok × List Tok)
  | _, [] => none
  | [], .gt :: ts => some ([], ts)
  | [], .shr :: ts => some ([], .gt :: ts)
  | [.angle], .shr :: ts => some ([.gt], ts)
  | .angle :: st, .gt :: ts => (closeAngle st ts).map fun r => (.gt :: r.1, r.2)
  | .angle :: .angle :: st, .shr :: ts => (closeAngle st ts).map fun r => (.shr :: r.1, r.2)
  | .angle :: st, .shr :: ts => (closeAngle st ts).map fun r => (.shr :: r.1, r.2)
  | st, .langle :: ts => (closeAngle (.angle :: st) ts).map fun r => (.langle :: r.1, r.2)
  | st, .lpar :: ts => (closeAngle (.par :: st) ts).map fun r => (.lpar :: r.1, r.2)
  | st, .lsq :: ts => (closeAngle (.sq :: st) ts).map fun r => (.lsq :: r.1, r.2)
  | st, .lbrace :: ts => (closeAngle (.brace :: st) ts).map fun r => (.lbrace :: r.1, r.2)
  | .par :: st, .rpar :: ts => (closeAngle st ts).map fun r => (.rpar :: r.1, r.2)
  | .sq :: st, .rsq :: ts => (closeAngle st ts).map fun r => (.rsq :: r.1, r.2)
  | .brace :: st, .rbrace :: ts => (closeAngle st ts).map fun r => (.rbrace :: r.1, r.2)
  | _, .rpar :: _ => none
  | _, .rsq :: _ => none
  | _, .rbrace :: _ => none
  | st, t :: ts => (closeAngle st ts).map fun r => (t :: r.1, r.2)

/-- What the compiler makes of an expression that is to be a template argument of type `bool` (`template <bool B>`, static_assert.hpp:32 and 46). -/
inductive Value where
  /-- a constant of type `bool`, or of a class type that converts to it -/
  | bool (b : Bool)
  /-- a constant of an arithmetic or pointer type: no such conversion is allowed in a template argument -/
  | other
  deriving DecidableEq, Repr

/-- What happens to a use of `STATIC_ASSERT`: it compiles and is `true`, it is an error that shows a message, or it is another error (static_assert.hpp:13-16, 37 and 39). -/
inductive Result where
  | passes
  | fails (msg : List Char)
  | error
  deriving DecidableEq, Repr

/-- `ct_check<B>.template emit<S>()`, static_assert.hpp:12-23 and 48, or `static_assert(B, S.str)` of line 37; then `return B`. -/
def check (b : Bool) (msg : List Char) : Result := if b then .passes else .fails msg

/-- `STATIC_ASSERT(toks)`, static_assert.hpp:31-40 and 45-50.  `ev` gives the value of a constant expression (`none` if it is none),
`fmt` the result of `STDX_CT_FORMAT(__VA_ARGS__)` as a string (`none` if it does not compile or runtime arguments are
left).  After the template argument list there must be the empty argument list `()`. -/
def staticAssert (ev : List Tok → Option Value) (fmt : List Tok → Option (List Char)) (toks : List Tok) : Result :=
  match firstArg 0 toks with
  | (cond, va) =>
    match closeAngle [] (cond ++ [.gt, .lpar, .rpar]) with
    | some (arg, [.lpar, .rpar]) =>
      match ev arg, fmt (va.getD []) with
      | some (.bool b), some msg => check b msg
      | _, _ => .error
    | _ => .error

/-! ## `STDX_PANIC` -/

/-- Where an argument of `STDX_PANIC` lives: a local variable (or parameter, or `this`) of the function around the macro, a variable with
static storage duration, or a temporary (panic.hpp:33: the lambda captures nothing). -/
inductive Home where
  | autoVar | staticVar | temp
  deriving DecidableEq, Repr

/-- An argument of `STDX_PANIC` or `panic`: where it lives, its value, and for variables whether it was given as an rvalue (`std::move`);
panic.hpp:19 and 24. -/
structure PArg (α : Type) where
  home : Home
  moved : Bool
  val : α
  deriving Repr

/-- What the handler sees of an argument: `std::forward<Args>(args)...`, panic.hpp:20 and 25: an rvalue stays one. -/
def PArg.seen (a : PArg α) : Bool × α := (a.moved || a.home == .temp, a.val)

/-- A call of the installed handler: with a message or without one; panic.hpp:20 and 25. -/
structure Call (α : Type) where
  msg : Option (List Char)
  args : List (Bool × α)
  deriving Repr

/-- `panic(args...)`, panic.hpp:19-21, by the calls of the handler it makes. -/
def panicFn (args : List (PArg α)) : List (Call α) := [⟨none, args.map PArg.seen⟩]

/-- `panic<S>(args...)`, panic.hpp:23-26. -/
def panicCt (s : List Char) (args : List (PArg α)) : List (Call α) := [⟨some s, args.map PArg.seen⟩]

/-- `MSG##_cts`, panic.hpp:35: the suffix is pasted to the last token of `MSG`, which is not expanded before; adjacent string literals are
one literal.  `none` if the result is not a string literal (it is then a name, which is taken not to be declared). -/
def pasteCts : List Tok → Option (List Char)
  | [.str s] => some s.toList
  | .str s :: ts => (pasteCts ts).map (s.toList ++ ·)
  | _ => none

/-- `STDX_PANIC(msg, args...)`, panic.hpp:32-36, by the calls of the handler it makes; `none` if it does not compile: a local variable
cannot be used in a lambda that does not capture it. -/
def stdxPanic (msg : List Tok) (args : List (PArg α)) : Option (List (Call α)) :=
  match pasteCts msg with
  | none => none
  | some s => if args.all (·.home != .autoVar) then some (panicCt s args) else none

end Verif.Macro
