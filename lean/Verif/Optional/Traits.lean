import Verif.Base

/-!
# Model of which types have tombstones, and of how `transform` and `and_then` call a function (optional.hpp)
-/

namespace Verif.Opt

/-! ## `tombstone_traits` -/

/-- Value types, as the specialisations of `tombstone_traits` in optional.hpp:29-50 tell them apart: floating-point, pointers,
integers, types with (`some`, the sentinel) or without a specialisation of their own, specialisations of a class template of types
(`tuplelike`: it has the tuple protocol and these types as elements; `constructible`: from one value of each), and `std::array`. -/
inductive VTy
  | floating
  | pointer
  | integral
  | own (sentinel : Option Nat)
  | templ (tuplelike constructible : Bool) (args : List VTy)
  | array (elem : VTy) (n : Nat)

/-- Values of these types that occur as tombstones (optional.hpp:32, 38, 47-48). -/
inductive TVal
  | infinity
  | null
  | sentinel (n : Nat)
  | node (vs : List TVal)

/-- The tombstone, `tombstone_traits<T>{}()`, optional.hpp:15-22, 29-50; `none` if `has_tombstone_v<T>` is false (24-27). The
specialisation for templates needs at least one argument (41-45). -/
def tombstone : VTy → Option TVal
  | .floating => some .infinity
  | .pointer => some .null
  | .integral => none
  | .own s => s.map .sentinel
  | .templ _ c args => if c && !args.isEmpty then (tombstones args).map .node else none
  | .array _ _ => none
where
  /-- The tombstones of all arguments, if each has one, optional.hpp:45, 47-48. -/
  tombstones : List VTy → Option (List TVal)
    | [] => some []
    | t :: ts => do
      let v ← tombstone t
      let vs ← tombstones ts
      return v :: vs

/-- Whether `optional<T>` can be used with the default traits, optional.hpp:94-98: not for integers even if they had traits. -/
def usable (t : VTy) : Bool :=
  match t with
  | .integral => false
  | t => (tombstone t).isSome

/-! ## `unwrap_invoke` -/

/-- Which function `apply` the unqualified name in optional.hpp:72, 76 finds for the value and its template arguments: none, `std::apply`
(C++20: not constrained), `stdx::apply` (constrained to tuples). -/
inductive Found
  | nothing
  | std
  | stdx
  deriving DecidableEq

/-- A contained type, for optional.hpp:63-78: whether it is a specialisation of a template of types, whether it has the tuple protocol, which
`apply` is found. -/
structure Contained where
  templ : Bool
  tuplelike : Bool
  found : Found

/-- How the function is called, or that the call does not compile. -/
inductive Invoked
  | whole
  | unpacked
  | illFormed
  deriving DecidableEq

/-- The call with the value itself, optional.hpp:65-67: it must be accepted. -/
def invokeWhole (acceptsWhole : Bool) : Invoked := if acceptsWhole then .whole else .illFormed

/-- `unwrap_invoke(f, arg)`, optional.hpp:63-86, as the member functions `transform` and `and_then` use it (198-259), for a function that accepts the
value itself or not, the elements or not. `decltype(apply(...))` instantiates the body of `apply` to find its return type, where an error is
not a substitution failure. -/
def unwrapInvoke (c : Contained) (acceptsWhole acceptsElements : Bool) : Invoked :=
  if c.templ then
    match c.found with
    | .nothing => invokeWhole acceptsWhole
    | .std => if c.tuplelike && acceptsElements then .unpacked else .illFormed
    | .stdx => if c.tuplelike then (if acceptsElements then .unpacked else .illFormed) else invokeWhole acceptsWhole
  else invokeWhole acceptsWhole

/-- `transform(f, opt)`, the function that is not a member, with one optional, optional.hpp:327-340. -/
def freeTransform (acceptsWhole _acceptsElements : Bool) : Invoked := invokeWhole acceptsWhole

end Verif.Opt
