import Verif.Priority.Model

/-!
# Model of `stdx::overload`  (/repo/include/stdx/utility.hpp:16-22)

The header only derives from the function objects and makes their call operators members of one class.  The model has these members, with the
ranking of overload resolution of `Verif/Priority/Model.lean`, and the state of the function objects.
-/

namespace Verif.OverloadSet

open Verif.Priority (notWorse someBetter better Result)

variable {A R σ : Type}

/-- An `operator()` of a function object (utility.hpp:17): whether it is `const` (as that of a lambda expression is if it is not `mutable`), and
the ranks of the conversions of given arguments, if it takes them.  Simplified: static and ref-qualified ones are left out. -/
structure Op (A : Type) where
  id : Nat
  const : Bool
  takes : A → Option (List Nat)

/-- The classes `Fs...` of utility.hpp:16. -/
inductive Kind where
  | class_
  | final
  | pointer
  deriving DecidableEq, Repr

/-- A function object: its type, what kind of type that is, and its `operator()`s. -/
structure Callee (A : Type) where
  type : Nat
  kind : Kind
  ops : List (Op A)

/-- The declaration `struct overload : Fs... { using Fs::operator()...; }` is well-formed (utility.hpp:16-18): only classes that are not final
can be bases, none can be a direct base twice, and each has to have an `operator()`. -/
def declared (fs : List (Callee A)) : Bool :=
  fs.all (fun f => decide (f.kind = .class_) && !f.ops.isEmpty) && decide (fs.map Callee.type).Nodup

/-- The members named `operator()` (utility.hpp:17). -/
def members (fs : List (Callee A)) : List (Op A) := fs.flatMap Callee.ops

/-- How well the object the call is made on fits the implicit object parameter: members that come from a using-declaration (utility.hpp:17)
are taken as members of the derived class ([over.match.funcs.general]/4), so that a reference to non-const is better for an object that is not
const, and not possible for one that is. -/
def object (constObject : Bool) (o : Op A) : Option Nat :=
  match constObject, o.const with
  | true, true => some 0
  | true, false => none
  | false, true => some 1
  | false, false => some 0

/-- The ranks of a member for a call, first the one of the object (utility.hpp:17). -/
def ranks (constObject : Bool) (a : A) (o : Op A) : Option (List Nat) := do
  let d ← object constObject o
  let r ← o.takes a
  return d :: r

/-- The viable members (utility.hpp:17). -/
def viable (constObject : Bool) (a : A) (os : List (Op A)) : List (Nat × List Nat) :=
  os.filterMap fun o => (ranks constObject a o).map fun r => (o.id, r)

/-- Overload resolution for a call on an object of type `overload<Fs...>` (utility.hpp:16-18): the viable member that is better than every
other one; `tie` is what decides if no conversion does. -/
def resolve (tie : Nat → Nat → Bool) (constObject : Bool) (fs : List (Callee A)) (a : A) : Result :=
  let v := viable constObject a (members fs)
  match v.find? (fun (i, r) => v.all (fun (j, s) => i == j || better tie i j r s)) with
  | some (i, _) => .calls i
  | none => if v.isEmpty then .noMatch else .ambiguous

/-- A call (utility.hpp:16-18): `owner` is the function object that a member belongs to, `run` what it does with its state.  The bases are
distinct objects; the call changes the state of one.  `none`: it does not compile. -/
def call (tie : Nat → Nat → Bool) (fs : List (Callee A)) (owner : Nat → Nat) (run : Nat → A → σ → σ × R) (a : A) (st : Nat → σ) :
    Option ((Nat → σ) × R) :=
  match resolve tie false fs a with
  | .calls i => some (fun t => if t = owner i then (run i a (st (owner i))).1 else st t, (run i a (st (owner i))).2)
  | _ => none

/-- Calls one after the other on one object. -/
def calls (tie : Nat → Nat → Bool) (fs : List (Callee A)) (owner : Nat → Nat) (run : Nat → A → σ → σ × R) :
    List A → (Nat → σ) → Option ((Nat → σ) × List R)
  | [], st => some (st, [])
  | a :: as, st => do
    let (st, r) ← call tie fs owner run a st
    let (st, rs) ← calls tie fs owner run as st
    return (st, r :: rs)

/-- The function that is called, if the call compiles (utility.hpp:16-18). -/
def called : Result → Option Nat
  | .calls i => some i
  | _ => none

/-- `std::visit(overload{...}, v)` for a variant whose alternatives have the types `alts`, with an object that is not const: it compiles if each
alternative has a call, and all calls have the same return type (`ret`); then it makes the call for the alternative that is held
(utility.hpp:16-18, docs/utility.adoc:170-176). -/
def visit (tie : Nat → Nat → Bool) (fs : List (Callee A)) (ret : Nat → Nat) (alts : List A) (held : Nat) : Option Nat := do
  let ids ← alts.mapM fun a => called (resolve tie false fs a)
  if ids.all (fun i => ids.all fun j => ret i == ret j) then ids[held]? else none

end Verif.OverloadSet
