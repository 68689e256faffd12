import Verif.Cached.Model

/-!
# Callables that use the object they belong to (/repo/include/stdx/latched.hpp)

`Verif.Cached.Model` takes a call of the callable to be one step.  Here a call is a body that may ask whether the object has a
value and may access it, any number of times, before it returns or throws.  An access inside an access is taken to do what the
same statements do anywhere else (`std::optional::emplace` is entered again while it constructs the value, which the standard
leaves to the implementation; it sets its flag after the construction).
-/

namespace Verif.Cached

/-- What a call of the callable does, latched.hpp:50: it ends with a value or an exception (`none`) and a new state, or it first
asks for `has_value()` (latched.hpp:19-24), or it first accesses the value (latched.hpp:26-45) and goes on with what that gave. -/
inductive Body (σ α : Type) where
  | done (r : Option α) (s : σ)
  | ask (k : Bool → Body σ α)
  | access (s : σ) (k : Option α → σ → Body σ α)

/-- The object, latched.hpp:54-55: the optional, the number of calls begun, the results of the calls that ended, and the number of
values that were overwritten without being destroyed. -/
structure RObj (α : Type) where
  opt : Option α
  begun : Nat
  ended : List (Option α)
  lost : Nat

variable {σ α : Type}

/-- A body that runs while the object is being populated, latched.hpp:50; `pop` is an access from inside. -/
def evalBody (pop : σ → RObj α → Option (Option α × σ × RObj α)) : Body σ α → RObj α → Option (Option α × σ × RObj α)
  | .done r s, o => some (r, s, o)
  | .ask k, o => evalBody pop (k o.opt.isSome) o
  | .access s k, o =>
    match pop s o with
    | some (v, s', o') => evalBody pop (k v s') o'
    | none => none

/-- `populate()` and the access that follows, latched.hpp:26-52: `emplace` runs the call and puts its value into the storage,
whatever is there by then; what the access returns, `none` being an exception.  The first argument bounds the depth of calls inside
calls; with too small a bound there is no result. -/
def populateR (f : σ → Body σ α) : Nat → σ → RObj α → Option (Option α × σ × RObj α)
  | 0, _, _ => none
  | n + 1, s, o =>
    match o.opt with
    | some a => some (some a, s, o)
    | none =>
      match evalBody (populateR f n) (f s) { o with begun := o.begun + 1 } with
      | some (some a, s', o') =>
        some (some a, s', ⟨some a, o'.begun, o'.ended ++ [some a], o'.lost + (if o'.opt.isSome then 1 else 0)⟩)
      | some (none, s', o') => some (none, s', { o' with ended := o'.ended ++ [none] })
      | none => none

end Verif.Cached
