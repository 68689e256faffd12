import Verif.Tuple.Access

/-!
# Model of how tuples are built from arguments and other tuples: types, copies and moves

`make_tuple`, `make_indexed_tuple` and `apply_indices` (tuple.hpp:473-491); `tuple_cat`, `tuple_cons`, `tuple_snoc` and `filter`
(tuple_algorithms.hpp:65-166).  The values themselves are C61 and C62; here is what type each element gets and whether it is
copied, moved or bound.

Simplified: every object type can be copied and moved; a member of array type is never initialised by an expression (brace
elision could split one over several arguments); `volatile` is left out.
-/

namespace Verif.TupleBuild

open TupleAccess

/-- The types that are not ordinary objects: arrays and functions, with the pointer types they decay to (`std::decay_t`,
tuple.hpp:474). -/
structure Lang where
  isArray : Nat → Bool
  isFunction : Nat → Bool
  pointer : Obj → Nat

/-- `std::decay_t`, as used at tuple.hpp:474. -/
def Lang.decay (L : Lang) (t : Ty) : Ty :=
  if L.isArray t.obj.name || L.isFunction t.obj.name then .val ⟨L.pointer t.obj, false⟩ else t.removeCvref

/-- Where a new element comes from: a copy of the object at a place, the object moved out of it, a reference to it, or a pointer to
it. What becomes of `element::value`, tuple.hpp:105. -/
inductive Made where
  | copied (p : Nat)
  | moved (p : Nat)
  | bound (p : Nat)
  | pointer (p : Nat)
  deriving DecidableEq

/-- Initialising a member of type `T` (`element::value`, tuple.hpp:105) with an expression of reference type `r` that denotes the object
at `p`.  The rules of the language: an object that is not const and given as an rvalue is moved. -/
def Lang.init (L : Lang) (T r : Ty) (p : Nat) : Option Made :=
  match T with
  | .val o =>
    if L.isArray o.name || L.isFunction o.name then none
    else if L.isArray r.obj.name || L.isFunction r.obj.name then
      if o.name = L.pointer r.obj then some (.pointer p) else none
    else if o.name = r.obj.name then
      match r with
      | .rref q => if q.const then some (.copied p) else some (.moved p)
      | _ => some (.copied p)
    else none
  | _ => if initialises T r then some (.bound p) else none

/-- The class templates the functions are used with. The concept is `has_tuple_protocol`, concepts.hpp:170-173. -/
inductive Tmpl where
  | tuple
  | indexed
  | stdTuple
  | stdPair
  | stdArray
  deriving DecidableEq

/-- An argument of a class template: a type, the type `index_function_list<Fs...>` (tuple.hpp:157), or a number. -/
inductive TArg where
  | type (T : Ty)
  | functions (fs : List Nat)
  | number (n : Nat)
  deriving DecidableEq

/-- A tuple that is given: the parameter `Tup &&tup` of tuple_algorithms.hpp:100-122. Only an `indexed_tuple` has index functions. -/
structure Tup where
  tmpl : Tmpl
  fns : List Nat
  elems : List Elem

/-- The arguments of its template: tuple.hpp:439-440, 454-456, and those of the standard classes. -/
def Tup.args (t : Tup) : List TArg :=
  match t.tmpl with
  | .indexed => .functions t.fns :: t.elems.map fun e => .type e.ty
  | .stdArray => [.type ((t.elems.head?.map (·.ty)).getD (.val ⟨0, false⟩)), .number t.elems.length]
  | _ => t.elems.map fun e => .type e.ty

/-- The types among template arguments, if all are types of elements: `Ts...` of tuple.hpp:170-172. -/
def types : List TArg → Option (List Ty)
  | [] => some []
  | .type T :: as => (types as).map (T :: ·)
  | _ :: _ => none

/-- The class that a template with the given arguments is, if it has a definition: its index functions and the types of its elements.
`tuple` and `indexed_tuple` are derived from `tuple_impl`, which is defined for a list of index functions followed by types
only: tuple.hpp:158, 170-172, 439-441, 454-456. -/
def instantiate : Tmpl → List TArg → Option (List Nat × List Ty)
  | .tuple, as => (types as).map ([], ·)
  | .indexed, .functions fs :: as => (types as).map (fs, ·)
  | .indexed, _ => none
  | .stdTuple, as => (types as).map ([], ·)
  | .stdPair, [.type T, .type U] => some ([], [T, U])
  | .stdPair, _ => none
  | .stdArray, [.type T, .number n] => some ([], List.replicate n T)
  | .stdArray, _ => none

/-- Whether all arguments are types, as the functions of mp11 need, tuple_algorithms.hpp:106, 118, 160. -/
def allTypes (as : List TArg) : Bool := as.all fun a => match a with | .number _ => false | _ => true

/-- `mp_push_front<tuple_t, T>`, tuple_algorithms.hpp:105-106. -/
def pushFront (as : List TArg) (T : Ty) : Option (List TArg) := if allTypes as then some (.type T :: as) else none

/-- `mp_push_back<tuple_t, T>`, tuple_algorithms.hpp:117-118. -/
def pushBack (as : List TArg) (T : Ty) : Option (List TArg) := if allTypes as then some (as ++ [.type T]) else none

/-- `mp_assign<tuple_t, type_list<Ts...>>`, tuple_algorithms.hpp:160-162: all arguments of the template are replaced. -/
def assign (as : List TArg) (Ts : List Ty) : Option (List TArg) := if allTypes as then some (Ts.map .type) else none

/-- `get<I>(std::forward<Tup>(tup))` for an element: by the overloads of stdx (tuple.hpp:422-426) or by the standard's (`using
std::get`, tuple_algorithms.hpp:104 and 116). -/
def Tup.access (k : Cat) (tm : Tmpl) (T : Ty) : Option Ty :=
  match tm with
  | .tuple | .indexed => (resolve k allOvs).map fun o => o.type T
  | _ =>
    match T with
    | .val o =>
      let q : Obj := { o with const := o.const || k.const }
      some (if k.rvalue then .rref q else .lref q)
    | .lref o => some (.lref o)
    | .rref o => some (if k.rvalue then .rref o else .lref o)

/-- An expression that initialises a member: its type, if there is such an expression, and the place of its object. They are in the
braces at tuple.hpp:474, 479-480, 487-489 and tuple_algorithms.hpp:93-95, 107-108, 119-120, 163. -/
abbrev Init := Option Ty × Nat

/-- Brace initialisation of members of the given types: every member from its expression, or it is ill-formed (`none`). The braces
are at tuple.hpp:474, 479-480, 487-489 and tuple_algorithms.hpp:93-95, 107-108, 119-120, 163. -/
def Lang.build (L : Lang) : List Ty → List Init → Option (List (Ty × Made))
  | [], [] => some []
  | T :: Ts, (some r, p) :: rest =>
    match L.init T r p, L.build Ts rest with
    | some m, some ms => some ((T, m) :: ms)
    | _, _ => none
  | _, _ => none

/-- The elements of a tuple as initialisers, `get<Is>(std::forward<Tup>(tup))...`, tuple_algorithms.hpp:108, 119, 163. -/
def Tup.inits (k : Cat) (t : Tup) : List Init := t.elems.map fun e => (Tup.access k t.tmpl e.ty, e.place)

/-- A new tuple (tuple_algorithms.hpp:107, 119, 163): its template, its index functions, and its elements. -/
structure New where
  tmpl : Tmpl
  fns : List Nat
  elems : List (Ty × Made)
  deriving DecidableEq

/-- An object of a class template with the given arguments, from initialisers. tuple_algorithms.hpp:105-108,
117-120, 160-163. -/
def Lang.make (L : Lang) (tm : Tmpl) (as : Option (List TArg)) (is : List Init) : Res New :=
  match as with
  | none => .illFormed
  | some as =>
    match instantiate tm as with
    | none => .illFormed
    | some (fs, Ts) =>
      match L.build Ts is with
      | some ms => .ok ⟨tm, fs, ms⟩
      | none => .illFormed

/-- `make_tuple(ts...)`, tuple.hpp:473-475. -/
def makeTuple (L : Lang) (as : List Arg) : Res New :=
  L.make .tuple (some (as.map fun a => .type (L.decay a.ty))) (as.map fun a => (some a.ty, a.place))

/-- `make_indexed_tuple<Fs...>(ts...)`, tuple.hpp:477-481. -/
def makeIndexedTuple (L : Lang) (fs : List Nat) (as : List Arg) : Res New :=
  L.make .indexed (some (.functions fs :: as.map fun a => .type a.ty.removeCvref)) (as.map fun a => (some a.ty, a.place))

/-- The concept `tuplelike`, concepts.hpp:145-146: the tuples of stdx only. -/
def Tup.tuplelike (t : Tup) : Bool := t.tmpl = .tuple || t.tmpl = .indexed

/-- `apply_indices<Fs...>(t)`, tuple.hpp:483-491. -/
def applyIndices (L : Lang) (k : Cat) (t : Tup) (fs : List Nat) : Res New :=
  if t.tuplelike then L.make .indexed (some (.functions fs :: t.elems.map fun e => .type e.ty)) (t.inits k) else .removed

/-- `tuple_cons(t, tup)`, tuple_algorithms.hpp:100-110, and `tuple_push_front`, 124-128. -/
def tupleCons (L : Lang) (a : Arg) (k : Cat) (t : Tup) : Res New :=
  L.make t.tmpl (pushFront t.args a.ty.removeCvref) ((some a.ty, a.place) :: t.inits k)

/-- `tuple_snoc(tup, t)`, tuple_algorithms.hpp:112-122, and `tuple_push_back`, 130-134. -/
def tupleSnoc (L : Lang) (k : Cat) (t : Tup) (a : Arg) : Res New :=
  L.make t.tmpl (pushBack t.args a.ty.removeCvref) (t.inits k ++ [(some a.ty, a.place)])

/-- `filter<Pred>(t)`, tuple_algorithms.hpp:136-166; that the indices are those of the elements with the property is C62. -/
def filter (L : Lang) (pred : Ty → Bool) (k : Cat) (t : Tup) : Res New :=
  let es := t.elems.filter fun e => pred e.ty
  L.make t.tmpl (assign t.args (es.map (·.ty))) (Tup.inits k { t with elems := es })

/-- `tuple_cat(ts...)` of two or more tuples, tuple_algorithms.hpp:71-96; that the indices run through all elements is C61. -/
def tupleCat (L : Lang) (ts : List (Cat × Tup)) : Res New :=
  if ts.all fun t => t.2.tuplelike then
    L.make .tuple (some (ts.flatMap fun t => t.2.elems.map fun e => .type e.ty)) (ts.flatMap fun t => t.2.inits t.1)
  else .removed

end Verif.TupleBuild
