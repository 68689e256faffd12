import Verif.Tuple.Model

/-!
# Which comparison of two tuples is chosen (/repo/include/stdx/tuple.hpp:108-111, 366-415, 438-466)

A tuple class has, as indirect base classes, one `element` per index, and the classes in between (`tuple_impl`).  Each
of them declares `operator==` and `operator<=>` as friends, so an expression `a == b` finds those of all bases of both
operands.  This file models the choice between them, for any types of elements.

Simplified: operators declared elsewhere (in the namespaces of the element types) are left out, and so are operands
that are not tuples but can be converted to one of the classes.  The reversed form of an element's operator is the same
function with its arguments exchanged and is never preferred; it is left out.
-/

namespace Verif.TupleCompare

open Verif.Tuple (Cmp opEq opCmp)

/-- What the choice depends on: types of elements with their comparisons.  `V` are the values. -/
structure Types (Ty κ V : Type) where
  /-- `Fs<std::remove_cvref_t<T>>`, tuple.hpp:160-163 -/
  key : κ → Ty → Ty
  /-- `std::equality_comparable_with<T, U>`, tuple.hpp:368 -/
  eqWith : Ty → Ty → Bool
  /-- the defaulted `operator==` of `element`, tuple.hpp:108-109, is not deleted: `T` has `==` and is no reference -/
  eqSelf : Ty → Bool
  /-- `==` on elements -/
  eq : Ty → Ty → V → V → Bool
  /-- `std::three_way_comparable_with<T, U>`, tuple.hpp:394 -/
  cmpWith : Ty → Ty → Bool
  /-- the defaulted `operator<=>` of `element`, tuple.hpp:110-111, is not deleted -/
  cmpSelf : Ty → Bool
  /-- `<=>` on elements -/
  cmp : Ty → Ty → V → V → Cmp

/-- `tuple_impl<std::index_sequence<...>, index_function_list<Fs...>, Ts...>`, tuple.hpp:170-172; `tuple<Ts...>` has no
index functions (438-440), `indexed_tuple` those it was made with (454-456). -/
structure Cls (Ty κ : Type) where
  fs : List κ
  ts : List Ty

/-- `element<Index, T, Ts...>`, tuple.hpp:55. -/
structure El (Ty : Type) where
  idx : Nat
  ty : Ty
  keys : List Ty
  deriving DecidableEq

variable {Ty κ V : Type} [DecidableEq Ty]

/-- The elements of a tuple, tuple.hpp:160-163, 172. -/
def Cls.bases (T : Types Ty κ V) (A : Cls Ty κ) : List (El Ty) :=
  A.ts.zipIdx.map fun p => ⟨p.2, p.1, A.fs.map fun f => T.key f p.1⟩

/-- An operand: a tuple, or an object of a type that is not `tuple_comparable` (concepts.hpp:142-143). -/
inductive Operand (Ty κ V : Type) where
  | tup (c : Cls Ty κ) (vs : List V)
  | other

/-- The functions that `a == b` (or `a <=> b`) may call. -/
inductive Cand (Ty : Type) where
  /-- the friend of the `tuple_impl` of `a`, tuple.hpp:367-391, 393-415; reversed: of `b`, with the operands exchanged -/
  | whole (reversed : Bool)
  /-- the friend of an `element` that is a base of both, tuple.hpp:108-111 -/
  | part (e : El Ty)
  /-- the deleted friend of the tuple, tuple.hpp:442-450, 457-466 -/
  | deleted
  deriving DecidableEq

/-- The constraint and the parameter types of the friends of `tuple_impl`, tuple.hpp:367-371, 393-397: the second operand has
the same number of elements (the same `index_sequence`), and corresponding types are comparable. -/
def wholeViable (w : Ty → Ty → Bool) : List Ty → List Ty → Bool
  | [], [] => true
  | t :: ts, u :: us => w t u && wholeViable w ts us
  | _, _ => false

/-- The candidates that are viable, tuple.hpp:108-111, 366-415, 442-466. -/
def cands (T : Types Ty κ V) (w : Ty → Ty → Bool) : Operand Ty κ V → Operand Ty κ V → List (Cand Ty)
  | .tup A _, .tup B _ =>
    (if wholeViable w A.ts B.ts then [.whole false] else []) ++ (if wholeViable w B.ts A.ts then [.whole true] else []) ++
      ((A.bases T).filter fun e => decide (e ∈ B.bases T)).map .part
  | .other, .other => []
  | _, _ => [.deleted]

/-- Which of two candidates is the better one: the conversion of an operand to its `tuple_impl` is better than the one to an
`element`, a base of that; otherwise a candidate that is not reversed is better. -/
def Cand.better : Cand Ty → Cand Ty → Bool
  | .whole _, .part _ => true
  | .whole false, .whole true => true
  | _, _ => false

/-- Overload resolution: the candidate that is better than every other. -/
def resolve (T : Types Ty κ V) (w : Ty → Ty → Bool) (a b : Operand Ty κ V) : Option (Cand Ty) :=
  let cs := cands T w a b
  cs.find? fun c => cs.all fun d => decide (d = c) || c.better d

/-- The types of a tuple with its values. -/
def Operand.typed : Operand Ty κ V → List (Ty × V)
  | .tup c vs => c.ts.zip vs
  | .other => []

/-- `a == b`. `none`: does not compile, because no function is best or the best one is deleted. The number of
comparisons that `opEq` counts is not used. -/
def equal (T : Types Ty κ V) (a b : Operand Ty κ V) : Option (Outcome Bool) :=
  let at_ (_ : Nat) (x y : Ty × V) (s : Nat) : Bool × Nat := (T.eq x.1 y.1 x.2 y.2, s + 1)
  match resolve T T.eqWith a b with
  | some (.whole false) => some (Prod.fst <$> opEq at_ a.typed b.typed 0)
  | some (.whole true) => some (Prod.fst <$> opEq at_ b.typed a.typed 0)
  | some (.part e) =>
    if T.eqSelf e.ty then
      some (do
        let x ← Tuple.get a.typed e.idx
        let y ← Tuple.get b.typed e.idx
        return T.eq x.1 y.1 x.2 y.2)
    else none
  | _ => none

/-- The result of a comparison with the operands exchanged. -/
def flip : Cmp → Cmp
  | .less => .greater
  | .greater => .less
  | c => c

/-- `a <=> b`, from which `<`, `>`, `<=` and `>=` are made. -/
def compare (T : Types Ty κ V) (a b : Operand Ty κ V) : Option (Outcome Cmp) :=
  let at_ (_ : Nat) (x y : Ty × V) : Cmp := T.cmp x.1 y.1 x.2 y.2
  match resolve T T.cmpWith a b with
  | some (.whole false) => some (opCmp at_ a.typed b.typed)
  | some (.whole true) => some (flip <$> opCmp at_ b.typed a.typed)
  | some (.part e) =>
    if T.cmpSelf e.ty then
      some (do
        let x ← Tuple.get a.typed e.idx
        let y ← Tuple.get b.typed e.idx
        return T.cmp x.1 y.1 x.2 y.2)
    else none
  | _ => none

end Verif.TupleCompare
