import Verif.Meta.Model

/-!
# Model of `shrink` and `expand` of values  (/repo/include/stdx/type_traits.hpp)

An expression has a type, which is not a reference, is an lvalue or not, and denotes an object with an identity and a content. A call that does not
compile is `none`. (That arguments of the `consteval` function `shrink` can be named in a constant expression is assumed.)
-/

namespace Verif.Meta

/-- What `std::is_default_constructible_v` and `std::is_empty_v` ask of classes, type_traits.hpp:248-254, and what `R{}` makes. A class without members
or virtual functions has no content. -/
structure Classes where
  defaults : Cls → Bool
  stateless : Cls → Bool
  made : Cls → List Nat
  made_stateless : ∀ c, stateless c = true → made c = []

/-- An argument of `shrink` or `expand`, type_traits.hpp:265, 276. -/
structure Arg where
  ty : Ty
  lvalue : Bool
  object : Nat
  content : List Nat

/-- The result of `expand`, type_traits.hpp:242-256: a reference to an object, or a new one. -/
inductive Expanded where
  | ref (object : Nat) (ty : Ty)
  | new (ty : Ty) (content : List Nat)

/-- The `T` that is deduced for a parameter `T const &`, type_traits.hpp:265. -/
def Ty.dropConst : Ty → Ty
  | .void cv => .void ⟨false, cv.volatile⟩
  | .scalar i cv => .scalar i ⟨false, cv.volatile⟩
  | .cls c cv => .cls c ⟨false, cv.volatile⟩
  | .array e n cv => .array e n ⟨false, cv.volatile⟩
  | .shrunk t cv => .shrunk t ⟨false, cv.volatile⟩
  | t => t

/-- `shrink(x)`, type_traits.hpp:264-267: a closure, which captures nothing. -/
def shrinkV (x : Arg) : Arg := ⟨shrinkT x.ty.dropConst, false, 0, []⟩

/-- `std::is_default_constructible_v<R>` and `std::is_empty_v<R>`, type_traits.hpp:248-254, and `R{}`, 255. Closures that capture nothing have
both; only classes that are not unions are empty. -/
def make (C : Classes) : Ty → Option (List Nat)
  | .cls c _ => if C.defaults c && (!c.union && C.stateless c) then some (C.made c) else none
  | .shrunk _ _ => some []
  | _ => none

/-- `expand(x)`, type_traits.hpp:241-256, 276-278: for the closures of `shrink` a new object of the type they stand for, if a function can return it;
otherwise `T(std::forward<T>(t))`, which is the object itself for an lvalue, and a new one made of it by moving if not. -/
def expandV (C : Classes) (x : Arg) : Option Expanded :=
  let plain := if x.lvalue then some (.ref x.object x.ty) else if x.ty.returnable then some (.new x.ty.callType x.content) else none
  match x.ty with
  | .shrunk t cv => if !cv.volatile && t.returnable then (make C t).map (.new t.callType ·) else plain
  | _ => plain

end Verif.Meta
