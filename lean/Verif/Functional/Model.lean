import Verif.Base

/-!
# Model of `stdx::with_result_of`, `safe_identity`, `unary_plus` and `dereference` (/repo/include/stdx/functional.hpp)

A callable has members of its own (`τ`), which a copy duplicates, and may read and change things outside itself
(`σ`).  A call returns a value or throws (`none`).  A program that does not compile is `none`.
Not modelled: reference-qualified call operators, `noexcept`, `volatile`, and the elision of the move between
the call and the initialised object.
-/

namespace Verif.Functional

/-- What sort of type the callable has; only a class that is not `final` can be the base of functional.hpp:13. -/
inductive FKind where
  | cls
  | finalCls
  | pointer
  deriving DecidableEq

/-- The type of a callable with its call operators: one for constant objects, one for the others, or both. -/
structure Callable (τ σ α : Type) where
  kind : FKind
  onConst : Option (τ → σ → Option α × σ)
  onMut : Option (τ → σ → Option α × τ × σ)

/-- `with_result_of{f}`, functional.hpp:13, 26-28: the callable becomes the base subobject. -/
def wrap {τ σ α : Type} (F : Callable τ σ α) (t : τ) : Option τ :=
  match F.kind with
  | .cls => some t
  | _ => none

/-- `operator R() const`, functional.hpp:16-19: calls the callable as a constant. -/
def convertConst {τ σ α : Type} (F : Callable τ σ α) (t : τ) (s : σ) : Option (Option α × τ × σ) :=
  match F.onConst with
  | some g => some ((g t s).1, t, (g t s).2)
  | none => none

/-- `operator R()`, functional.hpp:21-23: calls the callable; a call operator for objects that are not constant is
preferred. -/
def convertMut {τ σ α : Type} (F : Callable τ σ α) (t : τ) (s : σ) : Option (Option α × τ × σ) :=
  match F.onMut with
  | some g => some (g t s)
  | none =>
    match F.onConst with
    | some g => some ((g t s).1, t, (g t s).2)
    | none => none

/-- What a program does with its wrappers, which are numbered in the order in which they are made. -/
inductive Op (τ : Type) where
  /-- `with_result_of{f}` of a callable with members `t` -/
  | wrap (t : τ)
  /-- a copy of a wrapper -/
  | copy (i : Nat)
  /-- a wrapper goes through a function that forwards it and does not use its value -/
  | pass (i : Nat)
  /-- a value of the result type is initialised from a wrapper (as a constant or not) -/
  | convert (i : Nat) (const : Bool)
  /-- a value of a type with a constructor for anything, such as `std::any`, is initialised from a wrapper -/
  | greedy (i : Nat)

/-- What an operation of the program gives. -/
inductive Made (τ α : Type) where
  | nothing
  | value (a : α)
  | threw
  | wrapped (t : τ)

/-- The wrappers, the outside, and the number of calls made. -/
structure Sys (τ σ : Type) where
  ws : List τ
  ext : σ
  calls : Nat

/-- What a call that returned or threw gives, functional.hpp:18, 22. -/
def made {τ α : Type} : Option α → Made τ α
  | some a => .value a
  | none => .threw

/-- One step of the program, functional.hpp:13-28.  The constructor for anything is a better match for the wrapper
than a constructor that needs the conversion functions of functional.hpp:16-23, so it is chosen and copies the
wrapper. -/
def step {τ σ α : Type} (F : Callable τ σ α) (y : Sys τ σ) : Op τ → Option (Sys τ σ × Made τ α)
  | .wrap t =>
    match wrap F t with
    | some w => some ({ y with ws := y.ws ++ [w] }, .nothing)
    | none => none
  | .copy i =>
    match y.ws[i]? with
    | some w => some ({ y with ws := y.ws ++ [w] }, .nothing)
    | none => none
  | .pass i =>
    match y.ws[i]? with
    | some _ => some (y, .nothing)
    | none => none
  | .convert i const =>
    match y.ws[i]? with
    | some w =>
      match (if const then convertConst F w y.ext else convertMut F w y.ext) with
      | some (r, w', s') => some (⟨y.ws.set i w', s', y.calls + 1⟩, made r)
      | none => none
    | none => none
  | .greedy i =>
    match y.ws[i]? with
    | some w => some (y, .wrapped w)
    | none => none

/-- A program, functional.hpp:13-28. -/
def run {τ σ α : Type} (F : Callable τ σ α) : Sys τ σ → List (Op τ) → Option (Sys τ σ × List (Made τ α))
  | y, [] => some (y, [])
  | y, op :: ops =>
    match step F y op with
    | some (y', m) =>
      match run F y' ops with
      | some (z, ms) => some (z, m :: ms)
      | none => none
    | none => none

/-! ## `safe_identity` -/

/-- The value category of an argument. -/
inductive Cat where
  | lvalue
  | xvalue
  | prvalue
  deriving DecidableEq

/-- What an object of the argument's type can be made from: a copy, and a move with what it leaves behind. -/
structure Special (α : Type) where
  copyable : Bool
  move : Option (α → α)

/-- An object and whether it is still alive. -/
structure Cell (α : Type) where
  val : α
  alive : Bool

/-- An argument: its category, whether its type is `const`, and the object (for a prvalue, the temporary that is
made for the parameter). -/
structure Arg where
  cat : Cat
  const : Bool
  obj : Nat
  deriving DecidableEq

/-- What a call returns: a reference to an object or a value. -/
inductive Ret (α : Type) where
  | ref (i : Nat)
  | val (a : α)

/-- A new object made from an rvalue: the new value and what the source holds then.  A constant rvalue is copied, and
so is one of a type without a move constructor. -/
def fromRvalue {α : Type} (S : Special α) (const : Bool) (v : α) : Option (α × α) :=
  match (if const then none else S.move) with
  | some m => some (v, m v)
  | none => if S.copyable then some (v, v) else none

/-- `safe_identity(arg)`, functional.hpp:167-170: `T` is a reference for an lvalue and the object type otherwise, and
`T(std::forward<T>(t))` is a value of type `T`. -/
def safeIdentity {α : Type} (S : Special α) (st : List (Cell α)) (x : Arg) : Option (Ret α × List (Cell α)) :=
  match st[x.obj]? with
  | none => none
  | some c =>
    match x.cat with
    | .lvalue => some (.ref x.obj, st)
    | _ =>
      match fromRvalue S x.const c.val with
      | some (a, left) => some (.val a, st.set x.obj ⟨left, c.alive⟩)
      | none => none

/-- The end of the full-expression: the temporary made for a prvalue argument is destroyed. -/
def endFull {α : Type} (x : Arg) (st : List (Cell α)) : List (Cell α) :=
  match x.cat, st[x.obj]? with
  | .prvalue, some c => st.set x.obj ⟨c.val, false⟩
  | _, _ => st

/-- Reading what a call returned: undefined through a reference to an object that is gone. -/
def readRet {α : Type} (st : List (Cell α)) : Ret α → Outcome α
  | .val a => .ok a
  | .ref i =>
    match st[i]? with
    | some c => if c.alive then .ok c.val else .ub
    | none => .ub

/-! ## `unary_plus` and `dereference` -/

/-- An integer type. -/
structure IntTy where
  signed : Bool
  bits : Nat
  deriving DecidableEq

/-- `int`, 32 bits. -/
def IntTy.int : IntTy := ⟨true, 32⟩

/-- The type of unary `+`: types narrower than `int` are promoted to `int`. -/
def IntTy.promoted (T : IntTy) : IntTy := if T.bits < 32 then .int else T

/-- `unary_plus<T>{}(u)`, functional.hpp:147-152, and `unary_plus<>{}(u)`, functional.hpp:154-162 (`none`), for an
integer `u`: the type and the value of the result. -/
def unaryPlus (T : Option IntTy) (U : IntTy) (u : Int) : Option (IntTy × Int) :=
  match T with
  | none => some (U.promoted, u)
  | some T => if T = U then some (U.promoted, u) else none

/-- `dereference<T *>{}(p)`, functional.hpp:173-178, and `dereference<>{}(p)`, functional.hpp:180-188 (`none`), for a
pointer to an object of type number `U`, which points to the object `p`: a reference to that object. -/
def dereference {α : Type} (T : Option Nat) (U : Nat) (p : Nat) : Option (Ret α) :=
  match T with
  | none => some (.ref p)
  | some T => if T = U then some (.ref p) else none

end Verif.Functional
