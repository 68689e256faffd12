import Verif.Cached.Model

/-!
# How the value of a `latched` or `cached` is initialised (latched.hpp:48-55, functional.hpp:13-24)

`opt.emplace(lazy)` initialises the value from an object of type `with_result_of<F> const`, not from the result of
the function.  For most value types that needs the conversion function of functional.hpp:16-19, which calls the
function (`Verif.Cached.Model`).  A value type with a constructor that takes the wrapper itself, such as `std::any` or
`std::function<void()>` (the wrapper is derived from the callable and so is callable), is initialised by that
constructor, which is the better match, and nothing is called.
-/

namespace Verif.Cached

variable {σ α : Type}

/-- How the value type is initialised from the wrapper, latched.hpp:50, functional.hpp:13-19. -/
inductive Init (α : Type) where
  /-- by the conversion function of functional.hpp:16-19, which calls the function -/
  | result
  /-- by a constructor of the value type that takes the wrapper; `w` is the value it makes -/
  | wrapper (w : α)

/-- `populate()`, latched.hpp:48-52. -/
def populateI (i : Init α) (f : Fn σ α) (o : Obj σ α) : Obj σ α :=
  match o.opt with
  | some _ => o
  | none =>
    match i with
    | .result =>
      let r := f o.fs
      ⟨r.1, r.2, o.log ++ [r.1]⟩
    | .wrapper w => { o with opt := some w }

/-- One member function call, latched.hpp:19-45, cached.hpp:11-16. -/
def stepI (i : Init α) (f : Fn σ α) (o : Obj σ α) : Op → Obj σ α × Res α
  | .hasValue => (o, .flag o.opt.isSome)
  | .access =>
    let o := populateI i f o
    (o, deref o)
  | .reset => ({ o with opt := none }, .unit)
  | .refresh =>
    let o := populateI i f { o with opt := none }
    (o, deref o)

/-- A history of calls of latched.hpp:19-45 and cached.hpp:11-16. -/
def runI (i : Init α) (f : Fn σ α) (o : Obj σ α) : List Op → Obj σ α × List (Res α)
  | [] => (o, [])
  | op :: ops =>
    let r := stepI i f o op
    let rs := runI i f r.1 ops
    (rs.1, r.2 :: rs.2)

end Verif.Cached
