import Verif.Base

/-!
# Model of `ct_capacity` and `ct_capacity_v` (/repo/include/stdx/iterator.hpp)

`none` is an ill-formed program: the primary template's `static_assert`, or an ambiguous choice between
partial specialisations.
-/

namespace Verif.Capacity

/-- The types with a specialisation of `ct_capacity_v` (iterator.hpp:24-28, 131-136, span.hpp:278-283,
cx_vector.hpp:177-178, cx_map.hpp:138-139, cx_multimap.hpp:109-110, cx_queue.hpp:112-113,
cx_set.hpp:111-112), and all others.  Element types do not matter; an array of arrays is an array. -/
inductive Shape
  | stdArray (n : Nat)
  | cArray (n : Nat)
  | stdSpan (extent : Nat)
  | span (extent : Nat)
  | cxVector (n : Nat)
  | cxMap (n : Nat)
  | cxMultimap (n m : Nat)
  | cxQueue (n : Nat)
  | cxSet (n : Nat)
  | other
  deriving DecidableEq

/-- A type as a template argument of `ct_capacity_v`, iterator.hpp:21-30.  The qualifiers of an array's
elements are those of the array. -/
structure Ty where
  shape : Shape
  const : Bool
  volatile : Bool
  ref : Bool
  deriving DecidableEq

/-- `dynamic_extent`, the greatest `std::size_t`, for a `std::size_t` of `w` bits (span.hpp:20 and
iterator.hpp:135). -/
def dynamicExtent (w : Nat) : Nat := 2 ^ w - 1

/-- The partial specialisations, in the order of iterator.hpp:24-30, 131-136, span.hpp:278-283, cx_vector.hpp:177-178,
cx_map.hpp:138-139, cx_multimap.hpp:109-110, cx_queue.hpp:112-113 and cx_set.hpp:111-112. -/
inductive Sp
  | stdArray | cArray | const | stdSpan | stdSpanDynamic | span | spanDynamic
  | cxVector | cxMap | cxMultimap | cxQueue | cxSet
  deriving DecidableEq

/-- All of them: iterator.hpp:24-30, 131-136, span.hpp:278-283 and those of the containers. -/
def Sp.all : List Sp :=
  [.stdArray, .cArray, .const, .stdSpan, .stdSpanDynamic, .span, .spanDynamic, .cxVector, .cxMap,
    .cxMultimap, .cxQueue, .cxSet]

/-- Whether a specialisation's arguments can be deduced from a type (iterator.hpp:24-30, 131-136, span.hpp:278-283 and the other lines of `Sp`).  A class template
specialisation is matched by its unqualified type only; `T[N]` by an array of elements of any
qualification; `T const` by anything const. -/
def Sp.isMatch (w : Nat) (t : Ty) : Sp → Bool
  | .const => t.const && !t.ref
  | .cArray => !t.ref && match t.shape with | .cArray _ => true | _ => false
  | s => !t.const && !t.volatile && !t.ref &&
    match s, t.shape with
    | .stdArray, .stdArray _ => true
    | .stdSpan, .stdSpan _ => true
    | .stdSpanDynamic, .stdSpan n => n = dynamicExtent w
    | .span, .span _ => true
    | .spanDynamic, .span n => n = dynamicExtent w
    | .cxVector, .cxVector _ => true
    | .cxMap, .cxMap _ => true
    | .cxMultimap, .cxMultimap _ _ => true
    | .cxQueue, .cxQueue _ => true
    | .cxSet, .cxSet _ => true
    | _, _ => false

/-- Partial ordering: only the specialisations for `dynamic_extent` (iterator.hpp:134-136, span.hpp:281-283)
are more specialised than others (iterator.hpp:131-132, span.hpp:278-279).  `T[N]` and `T const` are not
ordered. -/
def Sp.more : Sp → Sp → Bool
  | .stdSpanDynamic, .stdSpan => true
  | .spanDynamic, .span => true
  | _, _ => false

/-- The specialisation used: `none` for the primary template, and no element for an ambiguous choice
(iterator.hpp:21-30). -/
def choose (w : Nat) (t : Ty) : Option (Option Sp) :=
  let ms := Sp.all.filter (Sp.isMatch w t)
  if ms = [] then some none
  else (ms.find? fun s => ms.all fun s' => s' = s || s.more s').map some

/-- The parameter `N` of a specialisation (iterator.hpp:24-28, 131-132, span.hpp:278-279 and the other lines of `Sp`): the first size argument. -/
def Shape.param : Shape → Nat
  | .stdArray n | .cArray n | .stdSpan n | .span n | .cxVector n | .cxMap n | .cxMultimap n _
  | .cxQueue n | .cxSet n => n
  | .other => 0

/-- `ct_capacity_v<T>`, iterator.hpp:15-30, 131-136, span.hpp:278-283 and the other lines of `Sp`. -/
def ctCapacityV (w : Nat) (t : Ty) : Option Nat :=
  match choose w t with
  | none => none
  | some none => none
  | some (some .stdSpanDynamic) => none
  | some (some .spanDynamic) => none
  | some (some .const) => if t.const then ctCapacityV w { t with const := false } else none
  | some (some _) => some t.shape.param
termination_by if t.const then 1 else 0
decreasing_by simp_all

/-- `std::remove_cvref_t`, iterator.hpp:34: of an array, the qualifiers of its elements are removed. -/
def Ty.removeCvref (t : Ty) : Ty := ⟨t.shape, false, false, false⟩

/-- `ct_capacity(x)`, iterator.hpp:32-35, for `T` deduced from any expression. -/
def ctCapacity (w : Nat) (t : Ty) : Option Nat := ctCapacityV w t.removeCvref

end Verif.Capacity
