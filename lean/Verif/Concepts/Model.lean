/-!
# Concepts (/repo/include/stdx/concepts.hpp:11-125, ranges.hpp:8-12)

Where the standard library has no concepts (`__cpp_lib_concepts < 202002L`, concepts.hpp:11) the header defines those of the standard
itself (18-84); otherwise it takes them from the standard library (95-107).

Simplified: a type is a name with qualifiers and a reference; what its operators, members and free functions give is a table. Left
out, because the text is that of the standard word for word: `floating_point`, `integral`, `signed_integral`, `convertible_to`, `derived_from`,
`same_as`, `invocable` and `predicate` (18-25, 30-45, 67-84).
-/

namespace Verif.Concepts

/-- How a type refers to an object: concepts.hpp:117-119. -/
inductive Ref where
  | none
  | lvalue
  | rvalue
  deriving DecidableEq

/-- A type: a name, qualifiers and a reference. (concepts.hpp:117-125) -/
structure Ty where
  name : Nat
  const : Bool
  volatile : Bool
  ref : Ref
  deriving DecidableEq

/-- `std::remove_cvref_t`, concepts.hpp:119. -/
def Ty.removeCvref (T : Ty) : Ty := ⟨T.name, false, false, .none⟩

/-- The operators, concepts.hpp:49-50 and 56-59. -/
inductive Op where
  | eq
  | ne
  | lt
  | le
  | gt
  | ge
  deriving DecidableEq

/-- What the concepts depend on. `R` are the types that operators return. -/
structure Types (R : Type) where
  /-- the type `bool`, concepts.hpp:49 -/
  bool : R
  /-- `std::is_convertible_v<R, bool>` and a `static_cast` to it, concepts.hpp:30-32 -/
  converts : R → Bool
  /-- the type of `!r`, as in concepts.hpp:77-79 -/
  neg : R → Option R
  /-- the type of `t op t` for an lvalue of the named type with the qualifiers (const, volatile), if there is such an operator,
  concepts.hpp:49-59 -/
  op : Op → Nat → Bool → Bool → Option R
  /-- no object of the type, nor a reference, can be declared (`void`), concepts.hpp:48 -/
  unreferenceable : Nat → Bool

variable {R : Type} [DecidableEq R]

/-- The const qualifier of the parameter `T const &t`, concepts.hpp:48 and 55: `const` has no effect on a type that is itself a reference. -/
def paramConst (T : Ty) : Bool := if T.ref = .none then true else T.const

/-- `{ t op t } -> same_as<bool>`, concepts.hpp:49-50, 56-59. -/
def exactly (L : Types R) (T : Ty) (o : Op) : Bool :=
  !L.unreferenceable T.name && decide (L.op o T.name (paramConst T) T.volatile = some L.bool)

/-- `equality_comparable`, concepts.hpp:47-51. -/
def equalityComparable (L : Types R) (T : Ty) : Bool := exactly L T .eq && exactly L T .ne

/-- `partially_ordered`, concepts.hpp:54-60. -/
def partiallyOrdered (L : Types R) (T : Ty) : Bool := exactly L T .lt && exactly L T .le && exactly L T .gt && exactly L T .ge

/-- `totally_ordered`, concepts.hpp:63-65. -/
def totallyOrdered (L : Types R) (T : Ty) : Bool := equalityComparable L T && partiallyOrdered L T

/-- The integer types: width and signedness; `bool` is an unsigned one of width 1. (concepts.hpp:21-28) -/
structure IntTy where
  signed : Bool
  width : Nat

/-- The value of `T(-1)`, on which `std::is_signed_v` and `std::is_unsigned_v` depend, concepts.hpp:25 and 28; of `bool` it is `true`. -/
def IntTy.minusOne (T : IntTy) : Int := if T.signed then -1 else 2 ^ T.width - 1

/-- `std::is_signed_v<T>`: `T(-1) < T(0)`, concepts.hpp:25. -/
def IntTy.isSigned (T : IntTy) : Bool := decide (T.minusOne < 0)

/-- `std::is_unsigned_v<T>`: `T(0) < T(-1)`, concepts.hpp:28. -/
def IntTy.isUnsigned (T : IntTy) : Bool := decide (0 < T.minusOne)

/-- `unsigned_integral`, concepts.hpp:27-28: a type that is not an integer type is `none`. -/
def unsignedIntegral : Option IntTy → Bool
  | some T => T.isUnsigned
  | none => false

/-- `same_as_unqualified`, concepts.hpp:117-119. -/
def sameAsUnqualified (T U : Ty) : Bool := decide (T.removeCvref = U.removeCvref)

/-- `same_any`, concepts.hpp:121-122: a fold over `or` from the left. -/
def sameAny (T : Ty) (Us : List Ty) : Bool := Us.foldl (fun b U => b || decide (T = U)) false

/-- `same_none`, concepts.hpp:124-125. -/
def sameNone (T : Ty) (Us : List Ty) : Bool := !sameAny T Us

/-! ## Ranges -/

/-- What `begin` (and `end`) gives: an iterator (a sentinel for it), or something else. (ranges.hpp:10-11) -/
inductive Gives where
  | iterator
  | other
  deriving DecidableEq

/-- The types that may be ranges, ranges.hpp:9-11: arrays, of known bound or not, and others with their members, called for an
object that is const or not, and free functions. -/
inductive Sort' where
  | array (bound : Option Nat)
  | cls (member : Bool → Bool → Option Gives) (free : Bool → Bool → Option Gives)

/-- `std::begin(t)` (`e` is false) or `std::end(t)` is well-formed, ranges.hpp:10-11, for an lvalue `t`, const if `c` is true. The standard's functions take arrays of known
bound, and call the member for a `C &` and for a `C const &`; free functions are not found, the name being qualified. -/
def stdCall (s : Sort') (e c : Bool) : Bool :=
  match s with
  | .array (some _) => true
  | .array none => false
  | .cls member _ => (member e c).isSome || !c && (member e true).isSome

/-- `range`, ranges.hpp:8-12. The type is not a reference, or the const of what it refers to is given. -/
def range (s : Sort') (c : Bool) : Bool := stdCall s false c && stdCall s true c

end Verif.Concepts
