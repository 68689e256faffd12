import Verif.CtString.Model

/-!
# Model of expressions of `ct_string` and `cts_t` (/repo/include/stdx/ct_string.hpp:77-85, 123-182)

A `cts_t<S>` is an empty object whose type holds the string `S`.  Overload resolution is the choice by the kinds of the operands:
the operators are templates, so that no operand is converted.
-/

namespace Verif.CtString

/-- What an operand is: a `ct_string<N>`, a `cts_t<S>`, or an array of characters (a string literal without suffix);
ct_string.hpp:27, 139 and 31. -/
inductive Kind where
  | str | cts | array
  deriving DecidableEq, Repr

/-- An operand with its characters (terminator included). -/
structure Operand where
  kind : Kind
  chars : CtString
  deriving DecidableEq, Repr

/-- Binary `+`: ct_string.hpp:123-137 for two `ct_string`s, 155-158 for two `cts_t`s, 160-163 and 165-168 for one of each; nothing else
is accepted (`ub`). -/
def plus (a b : Operand) : Outcome Operand :=
  match a.kind, b.kind with
  | .str, .str => do
    let c ← concat a.chars b.chars
    return ⟨.str, c⟩
  | .cts, .cts => do
    let c ← concat a.chars b.chars
    return ⟨.cts, c⟩
  | .str, .cts => do
    let c ← concat a.chars b.chars
    return ⟨.str, c⟩
  | .cts, .str => do
    let c ← concat a.chars b.chars
    return ⟨.str, c⟩
  | _, _ => .ub

/-- Unary `+`, ct_string.hpp:144, and the call operator, 145. -/
def unary (a : Operand) : Outcome Operand :=
  match a.kind with
  | .cts => .ok ⟨.str, a.chars⟩
  | _ => .ub

/-- `ct<S>()`, ct_string.hpp:174, and `cts_t<S>`: the operand becomes a template parameter of type `ct_string`, which converts a
`cts_t` (38-39, 77-78) and an array (31-36). -/
def ctOf (a : Operand) : Outcome Operand :=
  match a.kind with
  | .array => do
    let s ← ofArray a.chars
    return ⟨.cts, s⟩
  | _ => .ok ⟨.cts, a.chars⟩

/-- `==`: ct_string.hpp:80-85 for two `ct_string`s, 150-153 for two `cts_t`s. -/
def equal (a b : Operand) : Outcome Bool :=
  match a.kind, b.kind with
  | .str, .str => eq a.chars b.chars
  | .cts, .cts => eq a.chars b.chars
  | _, _ => .ub

/-- Expressions: `"..."_cts` (ct_string.hpp:180), `"..."_ctst` (182), `"..."`, `a + b`, `+a`, `ct<a>()`. -/
inductive Mixed where
  | strLit (l : List Char)
  | ctsLit (l : List Char)
  | literal (l : List Char)
  | plus (a b : Mixed)
  | unary (a : Mixed)
  | ct (a : Mixed)
  deriving Repr

/-- The value of an expression, `ub` if it does not compile.  The literals go through the constructor of lines 31-36. -/
def Mixed.eval : Mixed → Outcome Operand
  | .strLit l => do
    let s ← ofArray (l ++ [nul])
    return ⟨.str, s⟩
  | .ctsLit l => do
    let s ← ofArray (l ++ [nul])
    return ⟨.cts, s⟩
  | .literal l => .ok ⟨.array, l ++ [nul]⟩
  | .plus a b => do
    let x ← a.eval
    let y ← b.eval
    CtString.plus x y
  | .unary a => do
    let x ← a.eval
    CtString.unary x
  | .ct a => do
    let x ← a.eval
    ctOf x

end Verif.CtString
