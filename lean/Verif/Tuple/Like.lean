import Verif.Tuple.Model

/-!
# Model of which arguments the tuple algorithms accept, and of the result of `transform`

The tuple protocol (concepts.hpp:149-178, type_traits.hpp:326-339, tuple_destructure.hpp:31-38, utility.hpp:283-295,
span.hpp:28, 229-233, 285-289), the checks of `for_each`, `enumerate`, `all_of`, `any_of` and `none_of`
(tuple_algorithms.hpp:212-315) and the type that `transform` builds (tuple_algorithms.hpp:181-200, tuple.hpp:502-514).

Simplified: the elements of an argument are values; the types of results are not modelled, only the class template that
holds them.
-/

namespace Verif.Like

variable {α β σ : Type}

/-- The arguments: `stdx::tuple`, `stdx::indexed_tuple`, `std::tuple`, `std::pair`, `std::array`, a `stdx::span` of static
extent, `stdx::make_integer_sequence<T, n>`, an object of a class with a static member `size()` that gives zero (such as the empty
`ct_string`, ct_string.hpp:67), and anything else; for the last two, whether the type has a member `value_type`
(concepts.hpp:176-178).  Anything else includes a span of dynamic extent, a `std::vector`, a number; a class with a static
`size()` that is not zero, but without `get`, is left out (to ask whether it has the protocol does not compile). -/
inductive Arg (α : Type) where
  | tuple (xs : List α)
  | indexed (xs : List α)
  | stdTuple (xs : List α)
  | pair (x y : α)
  | array (xs : List α)
  | span (xs : List α)
  | seq (n : Nat)
  | sizeZero (hasValueType : Bool)
  | other (hasValueType : Bool)

/-- The value of `stdx::tuple_size_v` and whether its type is `std::size_t`, type_traits.hpp:326-334 (and
tuple_destructure.hpp:32-33, utility.hpp:288-289, span.hpp:28): for anything else the primary template gives `0u`, whose type
is `std::size_t` if that is `unsigned int` (`uint`), as on most 32-bit targets. -/
def tupleSize (uint : Bool) : Arg α → Nat × Bool
  | .tuple xs | .indexed xs | .stdTuple xs | .array xs | .span xs => (xs.length, true)
  | .pair _ _ => (2, true)
  | .seq n => (n, true)
  | .sizeZero _ => (0, true)
  | .other _ => (0, uint)

/-- `has_get_protocol`, concepts.hpp:158-167: `get<0>` of a non-empty argument. -/
def hasGet : Arg α → Bool
  | .tuple xs | .indexed xs | .stdTuple xs | .array xs | .span xs => !xs.isEmpty
  | .pair _ _ => true
  | .seq n => n != 0
  | .sizeZero _ | .other _ => false

/-- `has_tuple_protocol`, concepts.hpp:149-156 and 170-173. -/
def hasTupleProtocol (uint : Bool) (a : Arg α) : Bool :=
  (tupleSize uint a).2 && ((tupleSize uint a).1 == 0 || hasGet a)

/-- `typename T::value_type`, concepts.hpp:176-178: `make_integer_sequence` has it from `std::integer_sequence`
(utility.hpp:276-277). -/
def hasValueType : Arg α → Bool
  | .array _ | .span _ | .seq _ => true
  | .sizeZero b | .other b => b
  | .tuple _ | .indexed _ | .stdTuple _ | .pair _ _ => false

/-- `has_array_protocol`, concepts.hpp:175-178. -/
def hasArrayProtocol (uint : Bool) (a : Arg α) : Bool := hasTupleProtocol uint a && hasValueType a

/-- `get<I>(a)` for `I` below the size: tuple.hpp:422-426, span.hpp:229-233, utility.hpp:283-286 (`num` gives the constant), and the
standard library's `get`. -/
def elems (num : Nat → α) : Arg α → List α
  | .tuple xs | .indexed xs | .stdTuple xs | .array xs | .span xs => xs
  | .pair x y => [x, y]
  | .seq n => (List.range n).map num
  | .sizeZero _ | .other _ => []

/-- The constraint of every algorithm (tuple_algorithms.hpp:221 and the others). -/
def constraint (uint : Bool) (as : List (Arg α)) : Bool := as.all (hasTupleProtocol uint)

/-- `static_assert((... or not has_array_protocol<Ts>))`, tuple_algorithms.hpp:214-216, 244-247, 269-271, 291-293 and 304-306. -/
def notAllArrays (uint : Bool) (as : List (Arg α)) : Bool := as.any (fun a => !hasArrayProtocol uint a)

/-- `stdx::for_each` with one `tuple` or `indexed_tuple` is the function of tuple.hpp:516-522, which has no such check. -/
def isTuple : List (Arg α) → Bool
  | [.tuple _] | [.indexed _] => true
  | _ => false

/-- `std::make_index_sequence<zip_length_for<Ts...>>`, tuple_algorithms.hpp:174-178 and 207. -/
def indices (uint : Bool) (as : List (Arg α)) : List Nat :=
  List.range (Tuple.zipLength (as.map fun a => (tupleSize uint a).1))

/-- What `get<I>` of the arguments gives, for every `I` (tuple_algorithms.hpp:171). -/
def columns (num : Nat → α) (as : List (Arg α)) : List (List α) := as.map (elems num)

/-- The calls of `detail::unrolled_for_each`, tuple_algorithms.hpp:203-209. -/
def eachCalls (uint : Bool) (num : Nat → α) (op : Nat → List α → σ → σ) (as : List (Arg α)) (s : σ) : Outcome σ := do
  let r ← Tuple.calls (fun i => Tuple.invokeAt (fun xs s => ((), op i xs s)) (columns num as) i) (indices uint as) s
  return r.2

/-- `unrolled_for_each(op, as...)`, tuple_algorithms.hpp:203-209 and 221-225 (`none`: does not compile). -/
def unrolledForEach (uint : Bool) (num : Nat → α) (op : List α → σ → σ) (as : List (Arg α)) (s : σ) : Option (Outcome σ) :=
  if constraint uint as then some (eachCalls uint num (fun _ => op) as s) else none

/-- `for_each(op, as...)`, tuple_algorithms.hpp:212-219 and tuple.hpp:516-522. -/
def forEach (uint : Bool) (num : Nat → α) (op : List α → σ → σ) (as : List (Arg α)) (s : σ) : Option (Outcome σ) :=
  if constraint uint as && (isTuple as || notAllArrays uint as) then some (eachCalls uint num (fun _ => op) as s) else none

/-- `enumerate(op, as...)`, tuple_algorithms.hpp:228-250. -/
def enumerate (uint : Bool) (num : Nat → α) (op : Nat → List α → σ → σ) (as : List (Arg α)) (s : σ) : Option (Outcome σ) :=
  if constraint uint as && notAllArrays uint as then some (eachCalls uint num op as s) else none

/-- `all_of(f, as...)`, tuple_algorithms.hpp:259-273. -/
def allOf (uint : Bool) (num : Nat → α) (f : List α → σ → Bool × σ) (as : List (Arg α)) (s : σ) : Option (Outcome (Bool × σ)) :=
  if constraint uint as && notAllArrays uint as then
    some (Tuple.andFoldL ((indices uint as).map (Tuple.invokeAt f (columns num as))) s) else none

/-- `any_of(f, as...)`, tuple_algorithms.hpp:281-295. -/
def anyOf (uint : Bool) (num : Nat → α) (f : List α → σ → Bool × σ) (as : List (Arg α)) (s : σ) : Option (Outcome (Bool × σ)) :=
  if constraint uint as && notAllArrays uint as then
    some (Tuple.orFoldL ((indices uint as).map (Tuple.invokeAt f (columns num as))) s) else none

/-- `none_of(f, as...)`, tuple_algorithms.hpp:302-309. -/
def noneOf (uint : Bool) (num : Nat → α) (f : List α → σ → Bool × σ) (as : List (Arg α)) (s : σ) : Option (Outcome (Bool × σ)) :=
  if constraint uint as && notAllArrays uint as then
    some (do
      let r ← Tuple.orFoldL ((indices uint as).map (Tuple.invokeAt f (columns num as))) s
      return (!r.1, r.2)) else none

/-- `mp_assign<A, type_list<Rs...>>` and `R{rs...}`, tuple_algorithms.hpp:185-191 and 160-163: the template arguments of the
class of `a` are replaced.  The template of an array, a span or an integer sequence has an argument that is not a type, so that
nothing matches; that of an indexed tuple has the list of index functions first, which is missing after the replacement; a
pair has two elements. -/
def assign (a : Arg α) (rs : List β) : Option (Arg β) :=
  match a, rs with
  | .tuple _, rs => some (.tuple rs)
  | .stdTuple _, rs => some (.stdTuple rs)
  | .pair _ _, [r, q] => some (.pair r q)
  | _, _ => none

/-- `transform(op, as...)` without index functions, tuple_algorithms.hpp:181-193 and for one `tuple` or `indexed_tuple`
tuple.hpp:502-508. -/
def transform (uint : Bool) (num : Nat → α) (op : List α → σ → β × σ) (as : List (Arg α)) (s : σ) :
    Option (Outcome (Arg β × σ)) :=
  match as with
  | [] => none
  | a :: rest =>
    if constraint uint (a :: rest) then
      match Tuple.calls (Tuple.invokeAt op (columns num (a :: rest))) (indices uint (a :: rest)) s with
      | .ok (bs, s') => if isTuple (a :: rest) then some (.ok (.tuple bs, s')) else (assign a bs).map fun r => .ok (r, s')
      | .ub => some .ub
      | .panic => some .panic
    else none

/-- `filter<Pred>(a)`, tuple_algorithms.hpp:135-166; the predicate is on the types of the elements, here on the elements. -/
def filter (uint : Bool) (num : Nat → α) (pred : α → Bool) (a : Arg α) : Option (Arg α) :=
  if hasTupleProtocol uint a then assign a ((elems num a).filter pred) else none

/-- `get<I>(make_integer_sequence<T, N>{})`, utility.hpp:283-286: `T` holds the values below `max`, and there is no check against `N`. -/
def seqGet (max i _n : Nat) : Option Nat := if i < max then some i else none

/-- `stdx::tuple_element_t<I, make_integer_sequence<T, N>>`, utility.hpp:291-295. -/
def seqElement (max i n : Nat) : Option Nat := if i < n then seqGet max i n else none

/-- `std::tuple_element_t<I, make_integer_sequence<T, N>>`, utility.hpp:304-306. -/
def stdSeqElement (max i n : Nat) : Option Nat := seqGet max i n

end Verif.Like
