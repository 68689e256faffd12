import Verif.Optional.Model

/-!
# The result type of `transform` (/repo/include/stdx/optional.hpp:198-227, 327-340)

`transform` initialises the contained value of its result from an object of type `with_result_of<...>`, with braces in
a `stdx::optional` (115) and with parentheses in a `std::optional`.  What that does depends on the result type of the
callable: braces initialise an aggregate member by member and never by the conversion function of the wrapper.
-/

namespace Verif.Opt

variable {T U σ : Type}

/-- What sort of type the callable returns, as far as its initialisation from the wrapper (functional.hpp:13-24) goes. -/
inductive RKind (U : Type) where
  /-- not an aggregate, and no constructor takes the wrapper itself: it is initialised by the conversion function -/
  | plain
  /-- an aggregate whose first member cannot be initialised from the wrapper, or without members -/
  | aggregate
  /-- an aggregate whose first member can be initialised from the wrapper, the others being left to their defaults, which
  gives `u` -/
  | aggregateAny (u : U)
  /-- a type with a constructor that takes the wrapper, such as `std::any`, and makes `u` of it -/
  | any (u : U)

/-- `val{std::forward<U>(u)}` with the wrapper of `f`, optional.hpp:115, functional.hpp:16-24. `none`: does not compile. -/
def initBraces (k : RKind U) (f : St σ U) : Option (St σ U) :=
  match k with
  | .plain => some f
  | .aggregate => none
  | .aggregateAny u | .any u => some fun s => (u, s)

/-- The same with parentheses, as `std::optional` does (optional.hpp:335 with the `O` of 320-324): an aggregate can be
initialised by the conversion function. -/
def initParens (k : RKind U) (f : St σ U) : St σ U :=
  match k with
  | .plain | .aggregate | .aggregateAny _ => f
  | .any u => fun s => (u, s)

/-- `transform(f)`, optional.hpp:198-227. The type of the result is instantiated whether a value is contained or not. -/
def transformR (k : RKind U) (V : Val T) (W : Val U) (o : Optional T) (f : T → St σ U) : Option (St σ (Optional U)) :=
  match initBraces k (f o.val) with
  | some g => some (if hasValue V o then ofCall g else fun s => (empty W, s))
  | none => none

variable {ι : Type} {Ts : ι → Type}

/-- `transform(f, ts...)` on `stdx::optional`s, optional.hpp:327-340. -/
def transformNR (k : RKind U) (V : ∀ i, Val (Ts i)) (W : Val U) (f : List (Σ i, Ts i) → St σ U)
    (os : List (Σ i, Optional (Ts i))) : Option (St σ (Optional U)) :=
  match initBraces k (f (values os)) with
  | some g => some (if allEngaged V os then ofCall g else fun s => (empty W, s))
  | none => none

/-- `transform(f, ts...)` on `std::optional`s, optional.hpp:327-340. -/
def transformStdR (k : RKind U) (f : List (Σ i, Ts i) → St σ U) (os : List (Σ i, Option (Ts i))) (s : σ) :
    Outcome (Option U × σ) :=
  if allEngagedStd os then do
    let vs ← valuesStd os
    let r := initParens k (f vs) s
    return (some r.1, r.2)
  else .ok (none, s)

/-- The two templates an argument of the free `transform` may be an instance of, optional.hpp:311-313. -/
inductive OKind where
  | stdx
  | std
  deriving DecidableEq

/-- Which optional `transform(f, ts...)` returns, optional.hpp:315-324, 333: the overload of `convert_optional` whose
condition holds. `none`: does not compile, because neither holds or because both do. -/
def resultKind (ks : List OKind) : Option OKind :=
  match ks.all (· = .stdx), ks.all (· = .std) with
  | true, false => some .stdx
  | false, true => some .std
  | _, _ => none

end Verif.Opt
