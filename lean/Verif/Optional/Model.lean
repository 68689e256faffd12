import Verif.Base

/-!
# Model of `stdx::optional<T, TS>` (/repo/include/stdx/optional.hpp)

A value type is given by its `operator==`, its `operator<` and its tombstone.  An optional is its one data
member `val` (99).  Callables passed by the user may have side effects: they are functions in a state
monad `St σ`, where `σ` is whatever they can observe and change; a call that does not happen leaves the
state alone.  The four ref-qualified copies of each member function do the same on values and are
modelled once.  A callable that takes the contained value by non-const reference, or consumes it as an
rvalue, may leave another value behind: `transformRef` and `andThenRef` below.  Exceptions, `emplace` with an argument that refers to the
contained value (which is destroyed first, 188) and the forms of initialisation are in `Verif.Optional.Construct`.  `unwrap_invoke` (63-90) calls `f(a)` or
`apply(f, a)` depending on the type; both are the callable `f` here.
-/

namespace Verif.Opt

/-- A computation with side effects on `σ`: what a callable handed to the members of optional.hpp:198-259 may do. -/
abbrev St (σ α : Type) : Type := σ → α × σ

/-- What `optional` needs of `T` and `TS`, optional.hpp:93, 97-99: the class uses nothing else. -/
structure Val (T : Type) where
  /-- `operator==`, used in optional.hpp:134, 265 -/
  eq : T → T → Bool
  /-- `operator<`, used in optional.hpp:271 -/
  lt : T → T → Bool
  /-- `TS{}()`, optional.hpp:97-99 -/
  ts : T

/-- `optional<T, TS>`: the member `val`, optional.hpp:99. -/
structure Optional (T : Type) where
  val : T

variable {T U σ : Type}

/-- `optional()` and `optional(nullopt)`, optional.hpp:99, 104-105. -/
def empty (V : Val T) : Optional T := ⟨V.ts⟩

/-- `optional(in_place, args...)` and `optional(u)`, optional.hpp:107-115; the constructed value is `v`. -/
def ofValue (v : T) : Optional T := ⟨v⟩

/-- `optional(with_result_of{f})`: the value is constructed by calling `f`, optional.hpp:115 and 200-202
(`with_result_of` converts to the result of the call, functional.hpp:13-24). -/
def ofCall (f : St σ T) : St σ (Optional T) := fun s =>
  let r := f s
  (⟨r.1⟩, r.2)

/-- `has_value()` and `operator bool`, optional.hpp:133-136. -/
def hasValue (V : Val T) (o : Optional T) : Bool := !V.eq o.val V.ts

/-- `value()`, `operator*`, optional.hpp:138-174: no check. -/
def value (o : Optional T) : T := o.val

/-- `value_or(d)`, optional.hpp:176-184. -/
def valueOr (V : Val T) (o : Optional T) (d : T) : T := if hasValue V o then o.val else d

/-- `transform(f)`, optional.hpp:198-227; the result type has its own tombstone. -/
def transform (V : Val T) (W : Val U) (o : Optional T) (f : T → St σ U) : St σ (Optional U) :=
  if hasValue V o then ofCall (f o.val) else fun s => (empty W, s)

/-- `or_else(f)`, optional.hpp:229-234. -/
def orElse (V : Val T) (o : Optional T) (f : St σ (Optional T)) : St σ (Optional T) :=
  if hasValue V o then fun s => (o, s) else f

/-- `and_then(f)`, optional.hpp:236-259, and `operator|`, 289-304. -/
def andThen (V : Val T) (W : Val U) (o : Optional T) (f : T → St σ (Optional U)) : St σ (Optional U) :=
  if hasValue V o then f o.val else fun s => (empty W, s)

/-- Mutations, optional.hpp:117-131, 138-174, 186-196. -/
inductive Op (T : Type) where
  /-- `operator=(u)`, optional.hpp:122-131 -/
  | assign (v : T)
  /-- `emplace(args...)`, optional.hpp:186-191 -/
  | emplace (v : T)
  /-- `reset()`, optional.hpp:193-196 -/
  | reset
  /-- `operator=(nullopt)`, optional.hpp:117-120 -/
  | assignNull
  /-- the contained value is changed through the reference that `value()`, `operator*` or the pointer that
  `operator->` gave, optional.hpp:138-174 -/
  | modify (g : T → T)

/-- One mutation, optional.hpp:117-131, 138-174, 186-196. -/
def Op.apply (V : Val T) : Op T → Optional T → Optional T
  | .assign v, o => { o with val := v }
  | .emplace v, _ => ⟨v⟩
  | .reset, _ => ⟨V.ts⟩
  | .assignNull, _ => ⟨V.ts⟩
  | .modify g, o => ⟨g o.val⟩

/-- `operator==`, optional.hpp:262-266. -/
def eq (V : Val T) (a b : Optional T) : Bool := V.eq a.val b.val

/-- `operator<`, optional.hpp:268-273. -/
def lt (V : Val T) (a b : Optional T) : Bool :=
  if hasValue V a && hasValue V b then V.lt a.val b.val else !hasValue V a && hasValue V b

/-- `operator<=`, optional.hpp:274-278. -/
def le (V : Val T) (a b : Optional T) : Bool := !lt V b a

/-- `operator>`, optional.hpp:279-282. -/
def gt (V : Val T) (a b : Optional T) : Bool := lt V b a

/-- `operator>=`, optional.hpp:283-287. -/
def ge (V : Val T) (a b : Optional T) : Bool := !lt V a b

/-- `transform(f) &` and `transform(f) &&`, optional.hpp:198-204, 213-219, when the callable changes the
contained value through the reference it is given: `f` returns the value it leaves behind and its result.
The pair is the optional afterwards and the result. -/
def transformRef (V : Val T) (W : Val U) (o : Optional T) (f : T → St σ (T × U)) :
    St σ (Optional T × Optional U) := fun s =>
  if hasValue V o then
    let r := f o.val s
    ((⟨r.1.1⟩, ⟨r.1.2⟩), r.2)
  else ((o, empty W), s)

/-- `and_then(f) &` and `and_then(f) &&`, optional.hpp:236-240, 247-252, and the corresponding `operator|`,
293-300, with such a callable. -/
def andThenRef (V : Val T) (W : Val U) (o : Optional T) (f : T → St σ (T × Optional U)) :
    St σ (Optional T × Optional U) := fun s =>
  if hasValue V o then
    let r := f o.val s
    ((⟨r.1.1⟩, r.1.2), r.2)
  else ((o, empty W), s)

/-! The n-ary `transform` takes arguments of different types: `ι` indexes the types, `T i` is the value type
and `V i` its comparison and tombstone. -/

variable {ι : Type} {Ts : ι → Type}

/-- `(... and ts.has_value())`, optional.hpp:334. -/
def allEngaged (V : ∀ i, Val (Ts i)) : List (Σ i, Optional (Ts i)) → Bool
  | [] => true
  | ⟨i, o⟩ :: os => hasValue (V i) o && allEngaged V os

/-- `ts.value()...`, optional.hpp:336. -/
def values : List (Σ i, Optional (Ts i)) → List (Σ i, Ts i)
  | [] => []
  | ⟨i, o⟩ :: os => ⟨i, value o⟩ :: values os

/-- `transform(f, ts...)` on `stdx::optional`s, optional.hpp:327-340; the result is an `optional<R>` with the
default tombstone of `R` (315-319). -/
def transformN (V : ∀ i, Val (Ts i)) (W : Val U) (f : List (Σ i, Ts i) → St σ U) (os : List (Σ i, Optional (Ts i))) :
    St σ (Optional U) :=
  if allEngaged V os then ofCall (f (values os)) else fun s => (empty W, s)

/-- `(... and ts.has_value())` for `std::optional`s, optional.hpp:334. -/
def allEngagedStd : List (Σ i, Option (Ts i)) → Bool
  | [] => true
  | ⟨_, o⟩ :: os => o.isSome && allEngagedStd os

/-- `ts.value()...`, optional.hpp:336: `.value()` of a disengaged `std::optional` would throw. -/
def valuesStd : List (Σ i, Option (Ts i)) → Outcome (List (Σ i, Ts i))
  | [] => .ok []
  | ⟨_, none⟩ :: _ => .panic
  | ⟨i, some v⟩ :: os => do return ⟨i, v⟩ :: (← valuesStd os)

/-- `transform(f, ts...)` on `std::optional`s, optional.hpp:327-340; the result is a `std::optional<R>`
(320-324). -/
def transformStd (f : List (Σ i, Ts i) → St σ U) (os : List (Σ i, Option (Ts i))) (s : σ) :
    Outcome (Option U × σ) :=
  if allEngagedStd os then do
    let vs ← valuesStd os
    let r := f vs s
    return (some r.1, r.2)
  else .ok (none, s)

/-- `operator<` of `std::tuple` or `std::pair`, which optional.hpp:271 uses for such a type, on the components
listed: the first one that differs decides. -/
def lexLt {ι : Type} {Ts : ι → Type} (V : ∀ i, Val (Ts i)) (a b : ∀ i, Ts i) : List ι → Bool
  | [] => false
  | i :: is => if (V i).lt (a i) (b i) then true else if (V i).lt (b i) (a i) then false else lexLt V a b is

/-- The tombstone of a class template of `n` types with tombstones, e.g. `std::pair` or `std::tuple`,
optional.hpp:41-50: each component is its tombstone.  `==` and `<` are those of `std::tuple`. -/
def tupleVal {n : Nat} {Ts : Fin n → Type} (V : ∀ i, Val (Ts i)) : Val (∀ i, Ts i) where
  eq a b := (List.finRange n).all fun i => (V i).eq (a i) (b i)
  lt a b := lexLt V a b (List.finRange n)
  ts := fun i => (V i).ts

end Verif.Opt
