import Verif.Tuple.Build
import Verif.Tuple.Model

/-!
# Model of the tuple algorithms that pick elements by computed indices: types, copies and moves

`sort`, the pieces of `chunk_by` and `gather_by`, and `to_unsorted_set` (tuple_algorithms.hpp:348-357, 420-425, 487-494, 530-536).  Which
indices `sort`, `chunk_by` and `gather_by` compute is C65 and C66; here is what becomes of the elements.  `to_unsorted_set` finds
its indices among the arguments of the template of the tuple, which for an `indexed_tuple` are not only the types of its elements.
-/

namespace Verif.TupleBuild

open TupleAccess

/-- `stdx::tuple<tuple_element_t<Is, T>...>{std::forward<Tuple>(t)[index<Is>]...}` for the indices `idx`: `sort`,
tuple_algorithms.hpp:353-356, a chunk of `chunk_by`, 420-424, and a group of `gather_by`, 531-535. -/
def pick (L : Lang) (k : Cat) (t : Tup) (idx : List Nat) : Res New :=
  if t.tuplelike then
    match idx.mapM (t.elems[·]?) with
    | none => .illFormed
    | some es => L.make .tuple (some (es.map fun e => .type e.ty)) (Tup.inits k { t with elems := es })
  else .removed

/-- `get<mp_find<T, tuple_element_t<Is, U>>::value>(std::forward<Tuple>(t))`, tuple_algorithms.hpp:491-492, for an element of type `X` of `U`: the index
is that among the arguments of the template of `T`. -/
def Tup.found (k : Cat) (t : Tup) (X : Ty) : Init :=
  match t.elems[Tuple.mpFind t.args (.type X)]? with
  | some e => (Tup.access k t.tmpl e.ty, e.place)
  | none => (none, 0)

/-- `to_unsorted_set(t)`, tuple_algorithms.hpp:487-494: `U` is `mp_unique<T>`. -/
def toUnsortedSet (L : Lang) (k : Cat) (t : Tup) : Res New :=
  if t.tuplelike then
    match instantiate t.tmpl (Tuple.mpUnique t.args) with
    | none => .illFormed
    | some (fs, Ts) =>
      match L.build Ts (Ts.map (t.found k)) with
      | some ms => .ok ⟨t.tmpl, fs, ms⟩
      | none => .illFormed
  else .removed

end Verif.TupleBuild
