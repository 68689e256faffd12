import Verif.Base

/-! # Tuple access by index and type, `forward_like`, `arity_v`
(tuple.hpp, tuple_algorithms.hpp, utility.hpp, function_traits.hpp) -/

namespace Verif.Traits

/-! ## Tuple access -/

section Access
variable {τ α : Type} [DecidableEq τ]

/-- A tuple with index functions, tuple.hpp:157-163 (`element_helper`) and 436-470: elements with their types, in order; `bare` is `remove_cvref`. -/
structure Tup (τ α : Type) where
  elems : List (τ × α)
  funcs : List (τ → τ)
  bare : τ → τ

/-- The types an element can be asked for by: `T, Fs<std::remove_cvref_t<T>>...`, tuple.hpp:160-163, and the constraint of
tuple.hpp:77-95. -/
def Tup.keys (t : Tup τ α) (e : τ × α) : List τ := e.1 :: t.funcs.map fun f => f (t.bare e.1)

/-- `t[index<I>]` and `get<I>(t)`, tuple.hpp:226-270, 422-426. -/
def Tup.getIdx (t : Tup τ α) (i : Nat) : Outcome α :=
  match t.elems[i]? with
  | some e => .ok e.2
  | none => .ub

/-- `t.get(tag<T>)` and `get<T>(t)`, tuple.hpp:77-95, 272-290, 428-432: overload resolution among the elements; no
element is an error by `static_assert`, several are ambiguous. -/
def Tup.getTy (t : Tup τ α) (k : τ) : Outcome α :=
  match t.elems.filter fun e => k ∈ t.keys e with
  | [e] => .ok e.2
  | _ => .ub

/-- `contains_type<Tuple, T>`, tuple_algorithms.hpp:318-326, 344-346: the index functions are applied to the element types as they
are. -/
def Tup.containsType (t : Tup τ α) (k : τ) : Bool :=
  (t.funcs.any fun f => t.elems.any fun e => f e.1 = k) || t.elems.any fun e => k = e.1

/-- `apply_indices<Fs...>(t)`, tuple.hpp:482-491. -/
def Tup.applyIndices (t : Tup τ α) (fs : List (τ → τ)) : Tup τ α := { t with funcs := fs }

end Access

/-! ## `forward_like` -/

/-- Reference kinds of a type, as in `is_lvalue_reference_v` of utility.hpp:108 and the specialisations of
function_traits.hpp:51-117. -/
inductive Ref
  | none | lvalue | rvalue
  deriving DecidableEq

/-- A type up to its unqualified object type: what utility.hpp:105-122 asks of `T` and `U`. `volatile` is left out. -/
structure Ty where
  const : Bool
  ref : Ref
  deriving DecidableEq

/-- Reference collapsing: adding `&&`, utility.hpp:108, 118. -/
def Ty.addRval (t : Ty) : Ty := match t.ref with
  | .lvalue => t
  | _ => { t with ref := .rvalue }

/-- Adding `&`, utility.hpp:112. -/
def Ty.addLval (t : Ty) : Ty := { t with ref := .lvalue }

/-- The type deduced for `U` in `U &&u`, utility.hpp:106, from an argument that is an lvalue or not and of a possibly const type. -/
def deduce (lvalueArg const : Bool) : Ty := ⟨const, if lvalueArg then .lvalue else .none⟩

/-- The type of `forward_like<T>(u)`, utility.hpp:105-122. `std::as_const(u)` is `U const &`, and `std::move` of it `U const &&`. -/
def forwardLike (t u : Ty) : Ty :=
  if t.addRval.ref = .lvalue then
    if t.const then ⟨true, .lvalue⟩ else u.addLval
  else
    if t.const then ⟨true, .rvalue⟩ else u.addRval

/-! ## `arity_v` -/

/-- `generic_arity`, function_traits.hpp:154-171, with `callable n` whether the function takes `n` arguments of a type that converts
to everything; the recursion ends at the compiler's limit on its depth, the fuel. -/
def genericArity (callable : Nat → Bool) : Nat → Nat → Outcome Nat
  | 0, _ => .ub
  | fuel + 1, n => if callable n then .ok n else genericArity callable fuel (n + 1)

/-- `arity_t`, function_traits.hpp:174-178: the number of parameters if the function has one such; `mp_eval_or` is given the
generic arity in any case, so this must exist. -/
def arity (limit : Nat) (callable : Nat → Bool) (params : Option Nat) : Outcome Nat := do
  let g ← genericArity callable limit 0
  match params with
  | some n => return n
  | none => return g

/-! ## `function_traits` -/

/-- A type with its qualification: what function_traits.hpp:21-36 asks of the parameter types. -/
abbrev QTy (τ : Type) := Ty × τ

/-- cv- and ref-qualification of a member function, function_traits.hpp:51-117. -/
structure Quals where
  const : Bool
  volatile : Bool
  ref : Ref
  deriving DecidableEq

/-- A function's signature `R(Args...)`, function_traits.hpp:21; `noexcept` is part of the type and named by no specialisation. -/
structure Sig (τ : Type) where
  ret : QTy τ
  params : List (QTy τ)
  noexc : Bool

/-- The types `function_traits` is asked for, function_traits.hpp:19-134: function types, pointers to functions with their own
cv-qualifiers, pointers to member functions, classes with one call operator, other callables — classes with overloaded or
template call operators, C variadic functions — of which is known what numbers of `any_type` they accept (called as rvalues or as
lvalues, lines 119-128), and references to any of these. -/
inductive Fn (τ : Type)
  | function (s : Sig τ)
  | pointer (const volatile : Bool) (s : Sig τ)
  | member (cls : τ) (q : Quals) (s : Sig τ)
  | object (cls : τ) (q : Quals) (s : Sig τ)
  | generic (accepts : Nat → Bool)
  | reference (f : Fn τ)

/-- The members of `function_traits`, function_traits.hpp:21-36; `obj` is `none` for `void`. -/
structure Traits (τ : Type) where
  ret : QTy τ
  args : List (QTy τ)
  obj : Option (τ × Quals)

/-- `function_traits<R(Args...)>` and what derives from it, function_traits.hpp:21-36: there is none if `noexcept` is in the type. -/
def Sig.traits (s : Sig τ) (obj : Option (τ × Quals)) : Option (Traits τ) :=
  if s.noexc then none else some ⟨s.ret, s.params, obj⟩

/-- `obj_t`, function_traits.hpp:51-117, one specialisation for each qualification, in their order. -/
def objType (cls : τ) : Quals → τ × Quals
  | ⟨false, false, .none⟩ => (cls, ⟨false, false, .none⟩)
  | ⟨false, false, .lvalue⟩ => (cls, ⟨false, false, .lvalue⟩)
  | ⟨true, false, .lvalue⟩ => (cls, ⟨true, false, .lvalue⟩)
  | ⟨false, true, .lvalue⟩ => (cls, ⟨false, true, .lvalue⟩)
  | ⟨true, true, .lvalue⟩ => (cls, ⟨true, true, .lvalue⟩)
  | ⟨false, false, .rvalue⟩ => (cls, ⟨false, false, .rvalue⟩)
  | ⟨true, false, .rvalue⟩ => (cls, ⟨true, false, .rvalue⟩)
  | ⟨false, true, .rvalue⟩ => (cls, ⟨false, true, .rvalue⟩)
  | ⟨true, true, .rvalue⟩ => (cls, ⟨true, true, .rvalue⟩)
  | ⟨true, false, .none⟩ => (cls, ⟨true, false, .none⟩)
  | ⟨false, true, .none⟩ => (cls, ⟨false, true, .none⟩)
  | ⟨true, true, .none⟩ => (cls, ⟨true, true, .none⟩)

/-- `function_traits<F>`, function_traits.hpp:21-134: `none` when it has none of the members; a class, also by reference, has those
of its call operator (lines 129-132); a reference to a function or pointer matches no specialisation. -/
def functionTraits : Fn τ → Option (Traits τ)
  | .function s => s.traits none
  | .pointer _ _ s => s.traits none
  | .member c q s => s.traits (some (objType c q))
  | .object c q s => s.traits (some (objType c q))
  | .generic _ => none
  | .reference (.object c q s) => s.traits (some (objType c q))
  | .reference _ => none

/-- `return_t`, function_traits.hpp:139. -/
def returnT (f : Fn τ) : Option (QTy τ) := (functionTraits f).map (·.ret)

/-- `args_t`, function_traits.hpp:140-141. -/
def argsT (f : Fn τ) : Option (List (QTy τ)) := (functionTraits f).map (·.args)

/-- `decayed_args_t`, function_traits.hpp:25-26, 142-143; `std::decay_t` is any function. -/
def decayedArgsT (decay : QTy τ → QTy τ) (f : Fn τ) : Option (List (QTy τ)) := (functionTraits f).map (·.args.map decay)

/-- `obj_arg_t`, function_traits.hpp:146; the inner `none` is `void`. -/
def objArgT (f : Fn τ) : Option (Option (τ × Quals)) := (functionTraits f).map (·.obj)

/-- `nth_arg_t`, function_traits.hpp:30, 148-149. -/
def nthArgT (f : Fn τ) (n : Nat) : Option (QTy τ) := (functionTraits f).bind (·.args[n]?)

/-- `decayed_nth_arg_t`, function_traits.hpp:31, 150-152. -/
def decayedNthArgT (decay : QTy τ → QTy τ) (f : Fn τ) (n : Nat) : Option (QTy τ) := (nthArgT f n).map decay

/-- Whether an `any_type` converts to a parameter of this type, function_traits.hpp:14-17: the conversion function returns by
value, and a prvalue does not bind to an lvalue reference to non-const. -/
def fromAny (t : QTy τ) : Bool := !(t.1.ref == .lvalue && !t.1.const)

/-- `std::invoke_result_t<R(Args...), any_type<Is>...>` exists, function_traits.hpp:33-35. -/
def Sig.callable (s : Sig τ) (n : Nat) : Bool := n == s.params.length && s.params.all fromAny

/-- A pointer to member function: with traits it is called as `R(Args...)` (function_traits.hpp:51-117); if `noexcept` it is called
as it stands (lines 119-128), for which the first argument had to be an object, and an `any_type` is none. -/
def Sig.callableMember (s : Sig τ) (n : Nat) : Bool := !s.noexc && s.callable n

/-- `has_arg_count`, function_traits.hpp:33-35, 119-132, 155-160. -/
def Fn.callable : Fn τ → Nat → Bool
  | .function s, n => s.callable n
  | .pointer _ _ s, n => s.callable n
  | .member _ _ s, n => s.callableMember n
  | .object _ _ s, n => s.callableMember n
  | .generic accepts, n => accepts n
  | .reference (.function s), n => s.callable n
  | .reference (.pointer _ _ s), n => s.callable n
  | .reference (.object _ _ s), n => s.callableMember n
  | .reference (.generic accepts), n => accepts n
  | .reference _, _ => false

/-- `arity_t<F>`, function_traits.hpp:144-145, 174-178. -/
def arityT (limit : Nat) (f : Fn τ) : Outcome Nat := arity limit f.callable ((functionTraits f).map (·.args.length))

/-- The batch size of `for_each_n_args<N>(f, …)` is `N`, or the arity of `f` for `N = 0`, for_each_n_args.hpp:31-39; an lvalue `f` is
deduced as a reference. -/
def batchSize (limit n : Nat) (lvalueArg : Bool) (f : Fn τ) : Outcome Nat :=
  if n = 0 then arityT limit (if lvalueArg then .reference f else f) else .ok n

end Verif.Traits
