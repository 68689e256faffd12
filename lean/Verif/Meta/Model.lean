import Verif.Base

/-!
# Model of the type predicates of type_traits.hpp, `shrink`/`expand`, list traversal, `make_array` and `CT_WRAP`/`CX_WRAP`

A trait that is not defined for an argument — the use does not compile — is `none`.
-/

namespace Verif.Meta

/-! ## Types -/

/-- cv-qualification, as removed by `std::remove_cvref_t` in type_traits.hpp:54, 179. -/
structure CV where
  const : Bool
  volatile : Bool
  deriving DecidableEq

/-- No qualification, the result of `std::remove_cvref_t` (type_traits.hpp:54, 179). -/
def CV.empty : CV := ⟨false, false⟩

/-- What a class may be a specialisation of, type_traits.hpp:77-89: a template of types with types, or of values with values; types
and values are numbered. -/
inductive Spec
  | types (tmpl : Nat) (args : List Nat)
  | values (tmpl : Nat) (args : List Int)
  deriving DecidableEq

/-- A class or union, with what type_traits.hpp:47-89 asks of it: whether it is a union, is `final`, and has (or inherits) a member
named `operator()`. -/
structure Cls where
  id : Nat
  union : Bool
  final : Bool
  hasCall : Bool
  templ : Option Spec
  deriving DecidableEq

/-- Types, as type_traits.hpp:43-112 and 217-281 tell them apart. `func _ true` is a function type with a cv- or ref-qualifier;
`shrunk t` is the closure type that `shrink` makes for `t` (lines 226-230). -/
inductive Ty
  | void (cv : CV)
  | scalar (id : Nat) (cv : CV)
  | cls (c : Cls) (cv : CV)
  | array (elem : Nat) (size : Nat) (cv : CV)
  | func (id : Nat) (qualified : Bool)
  | shrunk (t : Ty) (cv : CV)
  | lref (t : Ty)
  | rref (t : Ty)
  deriving DecidableEq

/-! ## `is_specialization_of_v` -/

/-- `U &`, type_traits.hpp:93-100: there is none for `void` and qualified function types. -/
def Ty.addLref : Ty → Option Ty
  | .void _ => none
  | .func _ true => none
  | .lref t => some (.lref t)
  | .rref t => some (.lref t)
  | t => some (.lref t)

/-- `detail::is_type_specialization_of_v<T, U>`, type_traits.hpp:77-82: partial specialisations for `U<Ts...> &` and
`U<Ts...> const &`. -/
def typeSpecRef (tmpl : Nat) : Ty → Bool
  | .lref (.cls c cv) =>
    if cv = CV.empty ∨ cv = ⟨true, false⟩ then
      match c.templ with
      | some (.types t _) => t == tmpl
      | _ => false
    else false
  | _ => false

/-- `detail::is_value_specialization_of_v<T, U>`, type_traits.hpp:84-89. -/
def valueSpecRef (tmpl : Nat) : Ty → Bool
  | .lref (.cls c cv) =>
    if cv = CV.empty ∨ cv = ⟨true, false⟩ then
      match c.templ with
      | some (.values t _) => t == tmpl
      | _ => false
    else false
  | _ => false

/-- `is_specialization_of_v<U, T>` and `is_type_specialization_of_v`, type_traits.hpp:92-97 (and 102-106). -/
def isTypeSpecialization (u : Ty) (tmpl : Nat) : Option Bool := u.addLref.map (typeSpecRef tmpl)

/-- `is_value_specialization_of_v<U, T>`, type_traits.hpp:98-100 (and 108-112). -/
def isValueSpecialization (u : Ty) (tmpl : Nat) : Option Bool := u.addLref.map (valueSpecRef tmpl)

/-! ## `is_callable_v` -/

/-- `std::is_reference_v`, used at type_traits.hpp:45. -/
def Ty.isRef : Ty → Bool
  | .lref _ => true
  | .rref _ => true
  | _ => false

/-- `std::add_const_t`, used at type_traits.hpp:45: no effect on functions and references. -/
def Ty.addConst : Ty → Ty
  | .void cv => .void { cv with const := true }
  | .scalar i cv => .scalar i { cv with const := true }
  | .cls c cv => .cls c { cv with const := true }
  | .array e n cv => .array e n { cv with const := true }
  | .shrunk t cv => .shrunk t { cv with const := true }
  | t => t

/-- `std::is_const_v`, used at type_traits.hpp:45. -/
def Ty.isConst : Ty → Bool
  | .void cv => cv.const
  | .scalar _ cv => cv.const
  | .cls _ cv => cv.const
  | .array _ _ cv => cv.const
  | .shrunk _ cv => cv.const
  | _ => false

/-- `is_function_v<T>`, type_traits.hpp:43-45. -/
def isFunction (t : Ty) : Bool := !t.isRef && !t.addConst.isConst

/-- `is_function_object_v<T>`, type_traits.hpp:47-64: for a class, naming `operator()` in a class derived from it and from
`call_base` is ambiguous if it has one; for anything else it is not.  Deriving from a `final` class is an error. A union is not a
class in the sense of `std::is_class_v`. -/
def isFunctionObject : Ty → Option Bool
  | .cls c _ => if c.union then some false else if c.final then none else some c.hasCall
  | .shrunk _ _ => some true
  | _ => some false

/-- `is_callable_v<T>`, type_traits.hpp:66-67. -/
def isCallable (t : Ty) : Option Bool := (isFunctionObject t).map (isFunction t || ·)

/-! ## `shrink` and `expand` -/

/-- A function can return it (type_traits.hpp:237-239): not an array, not a function. -/
def Ty.returnable : Ty → Bool
  | .array _ _ _ => false
  | .func _ _ => false
  | _ => true

/-- The type of a call of a function that returns `t`, `decltype(expand<T>())` of type_traits.hpp:270, 281: a value that is not of
class type has no cv-qualification. -/
def Ty.callType : Ty → Ty
  | .void _ => .void CV.empty
  | .scalar i _ => .scalar i CV.empty
  | t => t

/-- `shrink_t<T>`, type_traits.hpp:218-230, 259, 280. -/
def shrinkT (t : Ty) : Ty := .shrunk t CV.empty

/-- `expand_t<T>`, type_traits.hpp:232-239, 269-281: for the closures of `shrink`, which can be called if not volatile, the type
they stand for, if a function can return it; otherwise, by the unconstrained overload, `T` itself, if a function can return that.
(A reference to such a closure satisfies `is_shrunk`, but `T{}` is then not valid.) -/
def expandT : Ty → Option Ty
  | .shrunk t cv =>
    if !cv.volatile && t.returnable then some t.callType
    else some (.shrunk t cv)
  | t => if t.returnable then some t.callType else none

/-! ## `type_lookup_t` -/

/-- `type_lookup_t<M, K, Default>` and `value_lookup_t`, utility.hpp:49-52, 60-61, 67-69, for values that are types: the type of a call
of the function `lookup` that overload resolution finds, which returns the value (or the default) and so is not a candidate if that
cannot be returned. `reverse_type_lookup_t` and `reverse_value_lookup_t` (54-57, 63-65, 71-73) are the same for the pairs turned
round. A pair given twice, and no candidate, are errors. -/
def lookupType [DecidableEq κ] (m : List (κ × Ty)) (k : κ) (d : Ty) : Option Ty :=
  let rest := if d.returnable then some d.callType else none
  if m.Nodup then
    match m.filter fun p => p.1 = k with
    | [p] => if p.2.returnable then some p.2.callType else rest
    | _ => rest
  else none

/-! ## Lists -/

/-- The lists `template_for_each` and `apply_sequence` are given, type_traits.hpp:114-115, 118-141: lists of types, lists of values,
a `std::integer_sequence`, the class `stdx::make_integer_sequence<T, N>` derived from one (utility.hpp:276-277), anything else. -/
inductive TList
  | types (ts : List Ty)
  | values (vs : List Int)
  | integers (vs : List Int)
  | makeSequence (n : Nat)
  | other

/-- A template argument, type_traits.hpp:127, 133, 139. -/
inductive TArg
  | type (t : Ty)
  | value (v : Int)

/-- The pack that the partial specialisation of `for_each_t` or `apply_sequence_t` deduces, type_traits.hpp:118-141, 148-171.
`stdx::make_integer_sequence<T, N>` fits `L<T, Vs...>` with the pack `N`; other types meet a `static_assert`. -/
def TList.pack : TList → Option (List TArg)
  | .types ts => some (ts.map .type)
  | .values vs => some (vs.map .value)
  | .integers vs => some (vs.map .value)
  | .makeSequence n => some [.value n]
  | .other => none

/-- `(f.template operator()<Ts>(), ...)`, type_traits.hpp:127, 133, 139: the function changes a state. -/
def callEach (f : TArg → σ → σ) : List TArg → σ → σ
  | [], s => s
  | a :: as, s => callEach f as (f a s)

/-- `template_for_each<L>(f)`, type_traits.hpp:144-145. -/
def templateForEach (l : TList) (f : TArg → σ → σ) (s : σ) : Option σ := l.pack.map fun p => callEach f p s

/-- `apply_sequence<L>(f)`, type_traits.hpp:147-175. -/
def applySequence (l : TList) (f : List TArg → β) : Option β := l.pack.map f

/-- `nth_t<N, Ts...>` and `nth_v<N, Vs...>`, type_traits.hpp:288-316. -/
def nth (n : Nat) (p : List α) : Option α := p[n]?

/-- `get<I>(make_integer_sequence<T, N>)`, utility.hpp:283-286; not checked against `N`. -/
def seqGet (_n i : Nat) : Option Nat := some i

/-- `tuple_size_v<make_integer_sequence<T, N>>`, utility.hpp:288-289, 301-303. -/
def seqSize (n : Nat) : Nat := n

/-- The value of `tuple_element_t<I, make_integer_sequence<T, N>>`, utility.hpp:291-295. -/
def seqElement (n i : Nat) : Option Nat := if i < n then some i else none

/-! ## `make_array` -/

/-- `make_array<D>(ts...)`, array.hpp:10-20: `D` is `none` for `void`. List initialisation converts each argument, of type and
value, or rejects it as narrowing (`conv`); without `D` the element type is the common type, if there is one, and `int` for no
arguments. -/
def makeArray (conv : τ → τ × ν → Option ν) (common : List τ → Option τ) (int : τ) (d : Option τ) (args : List (τ × ν)) :
    Option (τ × List ν) :=
  match d with
  | some d => (args.mapM (conv d)).map (d, ·)
  | none =>
    if args.length = 0 then some (int, [])
    else (common (args.map (·.1))).bind fun a => (args.mapM (conv a)).map (a, ·)

/-- The calls `f.template operator()<Is>()...` in a braced list, in order, array.hpp:35; each gives a value of the type
`ty i`. -/
def callIndices (f : Int → σ → ν × σ) : List Int → σ → List ν × σ
  | [], s => ([], s)
  | i :: is, s =>
    let r := f i s
    let q := callIndices f is r.2
    (r.1 :: q.1, q.2)

/-- `make_array(integer_sequence<T, Is...>, f)`, array.hpp:32-36, and with `::value` in place of calls array.hpp:22-26: the element
type is that of the result for `T{}`; results of other types are converted, or rejected.  `ty i` is the type of the result for `i`,
`none` if there is none. -/
def makeArraySeq (conv : τ → τ × ν → Option ν) (ty : Int → Option τ) (f : Int → σ → ν × σ) (is : List Int) (s : σ) :
    Option ((τ × List ν) × σ) := do
  let a ← ty 0
  let ts ← is.mapM ty
  let r := callIndices f is s
  let vs ← (ts.zip r.1).mapM (conv a)
  return ((a, vs), r.2)

/-- `make_array<N>(f)`, array.hpp:38-41, and `make_array<D, N>()`, array.hpp:28-30. -/
def makeArrayN (conv : τ → τ × ν → Option ν) (ty : Int → Option τ) (f : Int → σ → ν × σ) (n : Nat) (s : σ) :
    Option ((τ × List ν) × σ) :=
  makeArraySeq conv ty f ((List.range n).map Int.ofNat) s

/-- Integer types. -/
structure ITy where
  signed : Bool
  width : Nat
  deriving DecidableEq

/-- Representable values. -/
def ITy.Rep (t : ITy) (v : Int) : Prop :=
  if t.signed then -2 ^ (t.width - 1) ≤ v ∧ v < 2 ^ (t.width - 1) else 0 ≤ v ∧ v < 2 ^ t.width

/-- Every value of `t` is one of `d`. -/
def ITy.within (t d : ITy) : Bool :=
  match t.signed, d.signed with
  | true, true => t.width ≤ d.width
  | false, false => t.width ≤ d.width
  | false, true => t.width < d.width
  | true, false => false

/-- List initialisation of an integer from one that is not a constant, as all in array.hpp:13, 18 are: narrowing unless every value of the source
type is one of the target. -/
def ITy.listInit (d : ITy) (a : ITy × Int) : Option Int := if a.1.within d then some a.2 else none

/-- Integral promotion to a 32-bit `int`. -/
def ITy.promote (t : ITy) : ITy := if t.width < 32 then ⟨true, 32⟩ else t

/-- `std::common_type_t` of two integer types, array.hpp:17: the same type, or by the usual arithmetic conversions (types of one
width and signedness are identified). -/
def ITy.common (t u : ITy) : ITy :=
  if t = u then t
  else
    let t := t.promote
    let u := u.promote
    if t.signed = u.signed then (if t.width < u.width then u else t)
    else if t.signed then (if u.width < t.width then t else u)
    else (if t.width < u.width then u else t)

/-- `std::common_type_t` of several, array.hpp:17. -/
def ITy.commonAll : List ITy → Option ITy
  | [] => none
  | t :: ts => some (ts.foldl ITy.common t)

/-! ## `as_unsigned`, `as_signed` -/

/-- `as_unsigned(t)`, utility.hpp:127-131: not for `bool` (`none`); otherwise the conversion to the unsigned type of that width. -/
def asUnsigned (isBool : Bool) (t : ITy) (v : Int) : Option (ITy × Int) :=
  if isBool then none else some (⟨false, t.width⟩, v % 2 ^ t.width)

/-- `as_signed(t)`, utility.hpp:133-137. -/
def asSigned (isBool : Bool) (t : ITy) (v : Int) : Option (ITy × Int) :=
  if isBool then none else some (⟨true, t.width⟩, v.bmod (2 ^ t.width))

/-! ## `CT_WRAP`, `CX_WRAP` -/

/-- A macro argument, utility.hpp:344-354, 376-399: a type, or an expression with its value and what the macros ask about it:
whether its type is an `integral_constant`, `type_identity` or `cts_t` (`is_ct_v`), a `CX_VALUE`, an empty class, a type `ct` accepts;
whether its evaluation is a constant expression; and whether the lambda around it captures anything. -/
structure Expr (ν : Type) where
  val : ν
  isCt : Bool
  isCx : Bool
  empty : Bool
  structural : Bool
  constant : Bool
  captures : Bool

/-- What a macro gives, utility.hpp:346-353, 382-392: the value as the argument has it, the value as a new compile-time constant
(`ct`), or as a new constexpr callable (`CX_VALUE`). -/
inductive Wrapped (ν : Type)
  | same (v : ν)
  | ct (v : ν)
  | cx (v : ν)

/-- `CT_WRAP(e)`, utility.hpp:343-355: `ct<f()>()` needs a constant expression of a structural type; the second alternative of the
condition takes the branch whether it is valid or not. -/
def ctWrap (e : Expr ν) : Option (Wrapped ν) :=
  if e.isCt then some (.same e.val)
  else if (e.constant && e.structural) || !e.captures then
    if e.constant && e.structural then some (.ct e.val) else none
  else some (.same e.val)

/-- `CX_WRAP(e)` for an expression, utility.hpp:375-399, with `cx_detect` (359-371) telling whether it is a constant expression. -/
def cxWrap (e : Expr ν) : Option (Wrapped ν) :=
  if e.isCx || e.empty then some (.same e.val)
  else if e.constant then some (.cx e.val)
  else some (.same e.val)

end Verif.Meta
