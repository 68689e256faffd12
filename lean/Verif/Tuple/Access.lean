import Verif.Base

/-!
# Model of the value categories of element access (tuple.hpp) and of structured bindings (tuple_destructure.hpp)

Types are an object type with or without `const`, or a reference to one. An element has a type and a place: its own storage if it
is a value, the object it refers to if it is a reference. `volatile` is left out.
-/

namespace Verif.TupleAccess

/-- An object type: the unqualified type, and `const`. The types `Ts...` of tuple.hpp:170-172. -/
structure Obj where
  name : Nat
  const : Bool
  deriving DecidableEq

/-- A type, possibly a reference: the types `Ts...` of tuple.hpp:170-172. -/
inductive Ty where
  | val (o : Obj)
  | lref (o : Obj)
  | rref (o : Obj)
  deriving DecidableEq

/-- `T const`: nothing happens to references (as in tuple.hpp:97). -/
def Ty.addConst : Ty → Ty
  | .val o => .val { o with const := true }
  | t => t

/-- `T &`, references collapsing (as in tuple.hpp:100). -/
def Ty.addL : Ty → Ty
  | .val o => .lref o
  | .lref o => .lref o
  | .rref o => .lref o

/-- `T &&`, references collapsing (as in tuple.hpp:101). -/
def Ty.addR : Ty → Ty
  | .val o => .rref o
  | .lref o => .lref o
  | .rref o => .rref o

/-- The type referred to (`std::remove_reference_t`). -/
def Ty.obj : Ty → Obj
  | .val o => o
  | .lref o => o
  | .rref o => o

/-- `std::remove_cvref_t` (tuple.hpp:162, tuple_destructure.hpp:17-18). -/
def Ty.removeCvref (t : Ty) : Ty := .val { t.obj with const := false }

/-- How an object is given: const or not, as an rvalue or as an lvalue. -/
structure Cat where
  const : Bool
  rvalue : Bool
  deriving DecidableEq

/-- The three overloads of an accessor, `const &`, `&` and `&&` (tuple.hpp:62-103, 226-302). -/
inductive Ov where
  | clvr
  | lvr
  | rvr
  deriving DecidableEq

/-- Whether an overload can be called on an object so given: `const &` always, the other two need an object that is not const. -/
def Ov.viable (k : Cat) : Ov → Bool
  | .clvr => true
  | .lvr => !k.const && !k.rvalue
  | .rvr => !k.const && k.rvalue

/-- Overload resolution among the given overloads: an exact match is better than `const &`. Used for tuple.hpp:226-302. -/
def resolve (k : Cat) (ovs : List Ov) : Option Ov :=
  match ovs.filter (fun o => o.viable k && o ≠ .clvr) with
  | o :: _ => some o
  | [] => if .clvr ∈ ovs then some .clvr else none

/-- The type an accessor of an element of type `T` returns: tuple.hpp:97-103, 62-74, 77-95. -/
def Ov.type (T : Ty) : Ov → Ty
  | .clvr => T.addConst.addL
  | .lvr => T.addL
  | .rvr => T.addR

/-- What writing an expression does: it has a value, or the function it occurs in is removed from the candidates, or the program is
ill-formed. -/
inductive Res (α : Type) where
  | ok (a : α)
  | removed
  | illFormed
  deriving DecidableEq

/-- An element: its type, and the place of its value. -/
structure Elem where
  ty : Ty
  place : Nat
  deriving DecidableEq

/-- All the overloads of `operator[]`, `get` and `apply` (tuple.hpp:226-302). -/
def allOvs : List Ov := [.clvr, .lvr, .rvr]

/-- `t[index<I>]`, tuple.hpp:226-270. The type is deduced from the body, so that the failing `static_assert` in it (48-52) is an error
and not a removed candidate. -/
def index (k : Cat) (t : List Elem) (i : Nat) : Res (Ty × Nat) :=
  match resolve k allOvs with
  | none => .removed
  | some o => match t[i]? with
    | none => .illFormed
    | some e => .ok (o.type e.ty, e.place)

/-- `get<I>(t)`, tuple.hpp:422-426: what `t[index<I>]` is for the forwarded tuple. -/
def get (k : Cat) (t : List Elem) (i : Nat) : Res (Ty × Nat) := index k t i

/-- Whether an element is found by the type `U`: its type or an image of its unqualified type under an index function is `U`,
tuple.hpp:77-95, 160-163. -/
def matchesTy (fs : List (Nat → Ty)) (U : Ty) (e : Elem) : Bool := e.ty = U || fs.any (fun f => f e.ty.obj.name = U)

/-- `get<T>(t)`, tuple.hpp:428-432, 282-290: one of the elements' functions 77-95; the function 272-280 with the failing
`static_assert` (42-46) if there is none; an ambiguous call in a function whose type is deduced if there are several. -/
def getT (fs : List (Nat → Ty)) (k : Cat) (t : List Elem) (U : Ty) : Res (Ty × Nat) :=
  match resolve k allOvs with
  | none => .removed
  | some o => match t.filter (matchesTy fs U) with
    | [e] => .ok (o.type e.ty, e.place)
    | _ => .illFormed

/-- The arguments `apply` calls the function with, tuple.hpp:292-302, 497-500. -/
def apply (k : Cat) (t : List Elem) : Res (List (Ty × Nat)) :=
  match resolve k allOvs with
  | none => .removed
  | some o => .ok (t.map fun e => (o.type e.ty, e.place))

/-- The arguments the folds and `join` give to the function for the elements, tuple.hpp:198-224, 304-317: there is no overload for
lvalues that are not const. -/
def foldArgs (k : Cat) (t : List Elem) : Res (List (Ty × Nat)) :=
  match resolve k [.clvr, .rvr] with
  | none => .removed
  | some o => .ok (t.map fun e => (o.type e.ty, e.place))

/-- Whether something of type `T` can be initialised with an expression of the reference type `r`: a value by copying or moving, a
reference by binding directly without losing `const`. -/
def initialises (T r : Ty) : Bool :=
  match T, r with
  | .val o, r => o.name = r.obj.name
  | .lref o, .lref p => o.name = p.name && (!p.const || o.const)
  | .rref o, .rref p => o.name = p.name && (!p.const || o.const)
  | _, _ => false

/-- `tail()`, tuple.hpp:340-364: a new tuple of the types from the second on, each initialised by `operator[]` on the tuple; copies of
values are in new places, which is shown as `none`. -/
def tail (k : Cat) (t : List Elem) : Res (List (Ty × Option Nat)) :=
  match resolve k [.clvr, .rvr] with
  | none => .removed
  | some o =>
    if t.tail.all (fun e => initialises e.ty (o.type e.ty)) then
      .ok (t.tail.map fun e => (e.ty, match e.ty with | .val _ => none | _ => some e.place))
    else .illFormed

/-- An argument of a function with forwarding references: its object type, whether it is an rvalue, and its place. -/
structure Arg where
  obj : Obj
  rvalue : Bool
  place : Nat
  deriving DecidableEq

/-- The type of a forwarding parameter `T&&`, as a parameter that is forwarded. -/
def Arg.ty (a : Arg) : Ty := if a.rvalue then .rref a.obj else .lref a.obj

/-- `forward_as_tuple(ts...)`, tuple.hpp:493-495. -/
def forwardAsTuple (as : List Arg) : List Elem := as.map fun a => ⟨a.ty, a.place⟩

/-! ## Structured bindings -/

/-- `std::tuple_element<I, stdx::tuple<Ts...>>`, tuple_destructure.hpp:15-18 (24-27 for `indexed_tuple`): the unqualified type of the
element. -/
def stdElement (T : Ty) : Ty := (Ov.rvr.type T).removeCvref

/-- A name introduced by a structured binding, `auto [..]` (`c` for `auto const`) or `auto &[..]` (`lvalueRef`): the type `decltype` gives, and the place. The language's rules: the type is
`std::tuple_element`, with `const` added if the tuple is const; a hidden reference to it is initialised with `get<I>` of the tuple,
which is an lvalue if the variable is an lvalue reference and an rvalue otherwise. Used by tuple_destructure.hpp:12-27. -/
def bindName (c lvalueRef : Bool) (e : Elem) : Res (Ty × Nat) :=
  let T := if c then (stdElement e.ty).addConst else stdElement e.ty
  match get ⟨c, !lvalueRef⟩ [e] 0 with
  | .ok (r, p) =>
    let v := match r with | .lref _ => T.addL | _ => T.addR
    if initialises v r then .ok (T, p) else .illFormed
  | .removed => .illFormed
  | .illFormed => .illFormed

end Verif.TupleAccess
