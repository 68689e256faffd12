/-!
# Model of `is_complete_v` and `is_structural_v` (/repo/include/stdx/type_traits.hpp)

Types are numbers.  For `is_complete_v` a translation unit is the sequence of its definitions and uses.  For `is_structural_v` a type
has constructors with their parameter types; scalars have one without parameters.  Simplifications: parameters are of
unqualified types, by value; no constructor is a template, has default arguments or takes a `std::initializer_list`.
Rvalue references are not modelled.
-/

namespace Verif.Detect

/-! ## `is_complete_v` -/

/-- A translation unit defines types and uses `is_complete_v` (type_traits.hpp:319-321) of types. -/
inductive Op where
  | define (t : Nat)
  | ask (t : Nat)
  deriving DecidableEq, Repr

/-- What the compiler has so far: the defined types, and the specialisations `is_complete_v<T>` (type_traits.hpp:319) with their values. -/
structure Unit where
  defined : List Nat
  known : List (Nat × Bool)
  deriving Repr

/-- The beginning of a translation unit, before any use of type_traits.hpp:319. -/
def Unit.init : Unit := ⟨[], []⟩

/-- Instantiating `is_complete_v<T>`, type_traits.hpp:319-321: the partial specialisation with `sizeof(T)` matches exactly if `T` is defined at this point. -/
def instantiate (u : Unit) (t : Nat) : Bool := u.defined.contains t

/-- One step: a use of type_traits.hpp:319-321.  A variable template is instantiated at its first use; later uses have that value (formally the program has then no
meaning if the value would be different; compilers keep the first value). -/
def Unit.step (u : Unit) : Op → Unit × Option (Nat × Bool)
  | .define t => (⟨t :: u.defined, u.known⟩, none)
  | .ask t =>
    match u.known.lookup t with
    | some b => (u, some (t, b))
    | none => (⟨u.defined, (t, instantiate u t) :: u.known⟩, some (t, instantiate u t))

/-- The values of the uses of `is_complete_v` (type_traits.hpp:319-321), in order. -/
def Unit.run (u : Unit) : List Op → List (Nat × Bool)
  | [] => []
  | o :: os =>
    match u.step o with
    | (u', none) => u'.run os
    | (u', some a) => a :: u'.run os

/-! ## `is_structural_v` -/

/-- A constructor that can be used from outside: its parameter types, and whether it is `constexpr` (with bodies and members that are,
so that the call is a constant expression if the arguments are); used at type_traits.hpp:185-186. -/
structure Ctor where
  params : List Nat
  cx : Bool
  deriving DecidableEq, Repr

/-- A type: whether it may be the type of a template parameter (`template <auto>`, type_traits.hpp:203), and its constructors. -/
structure Ty where
  structural : Bool
  ctors : List Ctor
  deriving Repr

/-- The constructors that `n` arguments of type `any_t<T>` fit: `any_t<T>` converts to every type but `T`, type_traits.hpp:194-201. -/
def viable (env : Nat → Ty) (t n : Nat) : List Ctor :=
  (env t).ctors.filter fun c => c.params.length == n && !c.params.contains t

/-- `is_constructible_v<T, any_t<T>...>` and the constructor used, type_traits.hpp:185-186: two that fit are ambiguous, since they use different
conversions of the argument. -/
def chosen (env : Nat → Ty) (t n : Nat) : Option Ctor :=
  match viable env t n with
  | [c] => some c
  | _ => none

/-- The recursion of `try_construct`, type_traits.hpp:184-192, over the number of arguments, from `10 - k`. -/
def pick (env : Nat → Ty) (t : Nat) : Nat → Option Ctor
  | 0 => chosen env t 10
  | k + 1 =>
    match chosen env t (10 - (k + 1)) with
    | some c => some c
    | none => pick env t k

/-- Whether `try_construct<T>()`, type_traits.hpp:184-201, is a constant expression, where the compiler evaluates up to `depth` nested calls: the arguments are made
by `any_t::operator U`, which calls `try_construct<U>()`. -/
def tryConstruct (env : Nat → Ty) : Nat → Nat → Bool
  | 0, _ => false
  | depth + 1, t =>
    match pick env t 10 with
    | none => false
    | some c => c.cx && c.params.all (tryConstruct env depth)

/-- A type or a reference to one: type_traits.hpp:205 and 206-207. -/
inductive TyRef where
  | obj (t : Nat)
  | lref (t : Nat)
  deriving DecidableEq, Repr

/-- `is_structural_v`, type_traits.hpp:203-211: the value is used as a template argument of deduced type. -/
def isStructural (env : Nat → Ty) (depth : Nat) : TyRef → Bool
  | .lref _ => true
  | .obj t => tryConstruct env depth t && (env t).structural

end Verif.Detect
