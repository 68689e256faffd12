import Verif.Base

/-!
# Model of `stdx::latched<F>` and `stdx::cached<F>` (/repo/include/stdx/latched.hpp, cached.hpp)

The callable may be stateful and may throw: a call takes its state `σ` to a new state and returns a value
or throws (`none`).  The object is the member `std::optional<value_type> opt` (latched.hpp:55); the model
also logs the calls made.  Copies of the object are in `Verif.Cached.Copies`, callables that use the object they belong to in
`Verif.Cached.Reenter`, assignment through the reference `refresh()` returns in `Verif.Cached.Write`, and several threads in
`Verif.Cached.Threads`.  Not modelled: moved-from objects.
-/

namespace Verif.Cached

/-- The callable `F`, called through `with_result_of<F>`, latched.hpp:50, 54. -/
abbrev Fn (σ α : Type) : Type := σ → Option α × σ

/-- The object, latched.hpp:54-55, with the callable's state and the results of the calls made so far. -/
structure Obj (σ α : Type) where
  opt : Option α
  fs : σ
  log : List (Option α)

/-- A fresh object, latched.hpp:16-17, 55. -/
def Obj.fresh {σ α : Type} (s : σ) : Obj σ α := ⟨none, s, []⟩

/-- `populate()`, latched.hpp:48-52: `emplace` leaves `opt` empty if the call throws. -/
def populate {σ α : Type} (f : Fn σ α) (o : Obj σ α) : Obj σ α :=
  match o.opt with
  | some _ => o
  | none =>
    let r := f o.fs
    ⟨r.1, r.2, o.log ++ [r.1]⟩

/-- Member functions, latched.hpp:19-45, cached.hpp:11-16. -/
inductive Op where
  /-- `has_value()`, `operator bool`, latched.hpp:19-24 -/
  | hasValue
  /-- `value()`, `operator->`, `operator*`, latched.hpp:26-45 -/
  | access
  /-- `cached::reset()`, cached.hpp:11 -/
  | reset
  /-- `cached::refresh()`, cached.hpp:12-16 -/
  | refresh
  deriving DecidableEq

/-- What a call of a member function (latched.hpp:19-45, cached.hpp:11-16) gives: a flag, a value, an
exception, or nothing. -/
inductive Res (α : Type) where
  | flag (b : Bool)
  | value (a : α)
  | threw
  | unit
  deriving DecidableEq

/-- The value an access or refresh returns after `populate()`: `*opt`, latched.hpp:28, cached.hpp:15; if the call
threw, the exception has left the function before that. -/
def deref {σ α : Type} (o : Obj σ α) : Res α :=
  match o.opt with
  | some a => .value a
  | none => .threw

/-- One member function call, latched.hpp:19-45, cached.hpp:11-16. -/
def step {σ α : Type} (f : Fn σ α) (o : Obj σ α) : Op → Obj σ α × Res α
  | .hasValue => (o, .flag o.opt.isSome)
  | .access =>
    let o := populate f o
    (o, deref o)
  | .reset => ({ o with opt := none }, .unit)
  | .refresh =>
    let o := populate f { o with opt := none }
    (o, deref o)

/-- A history of calls of latched.hpp:19-45 and cached.hpp:11-16. -/
def run {σ α : Type} (f : Fn σ α) (o : Obj σ α) : List Op → Obj σ α × List (Res α)
  | [] => (o, [])
  | op :: ops =>
    let r := step f o op
    let rs := run f r.1 ops
    (rs.1, r.2 :: rs.2)

end Verif.Cached
