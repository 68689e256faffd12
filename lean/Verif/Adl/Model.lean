import Verif.Algorithm.Model
import Verif.Tuple.Model

/-!
# Unqualified calls (/repo/include/stdx/algorithm.hpp:96, tuple_algorithms.hpp:436, 445-446, 457, 466-467)

`for_each_butlastn` for random access iterators calls `for_each_n`, and the Cartesian products call `make_tuple` and
`forward_as_tuple`, by their unqualified names.  Which function such a call means depends on the types of the arguments:
functions of the same name are also looked for in the namespaces associated with those types (argument-dependent
lookup), and overload resolution picks among all that are found.  The models of these algorithms in `Verif.Algorithm`
and `Verif.Tuple` take the library's own function for granted; here is the choice itself.

The types of iterators, operations and elements are parameters, as is whether the header of the standard library that
declares the function of the same name has been included (in libstdc++, `<functional>` declares `std::for_each_n`,
`<tuple>` the other two; algorithm.hpp:5-6 and tuple_algorithms.hpp:11-15 include them directly or indirectly).  `ub` stands for a call
that does not compile.  Simplified: only the standard library declares functions of these names besides stdx, and its
overload of `for_each_n` with an execution policy is left out.
-/

namespace Verif.Adl

open Verif.Algorithm (World Cat)

/-- Namespaces: that of the standard library, `stdx` (with its inline namespace, algorithm.hpp:10-11), others. -/
inductive Ns where
  | std
  | stdx
  | other (n : Nat)
  deriving DecidableEq

/-- The types of arguments at algorithm.hpp:96 and tuple_algorithms.hpp:445-446, 466-467, as far as their associated
namespaces matter: builtin types; a class with its namespace and those of its bases (a closure type is one, in the
namespace of the function it is written in); a class template applied to one more type; pointers and references. -/
inductive Ty where
  | builtin
  | cls (ns : Ns) (bases : List Ns)
  | inst (c arg : Ty)
  | ptr (t : Ty)
  deriving DecidableEq

/-- The associated namespaces of an argument type of the calls at algorithm.hpp:96 and tuple_algorithms.hpp:445-446, 466-467
(the rule of the language: the namespaces of the class and its bases, and those of the template arguments). -/
def Ty.assoc : Ty → List Ns
  | .builtin => []
  | .cls ns bases => ns :: bases
  | .inst c a => c.assoc ++ a.assoc
  | .ptr t => t.assoc

/-- A function template all of whose parameters are deduced: `fixed` parameters, and a pack after them or not.
`for_each_n` has three and a pack (algorithm.hpp:57-61), `std::for_each_n` three; the other two have a pack only (tuple.hpp:473-475, 493-495). -/
structure Fn where
  ns : Ns
  fixed : Nat
  pack : Bool
  deriving DecidableEq

/-- Whether a call with `k` arguments, such as that at algorithm.hpp:96, can mean the function. -/
def Fn.viable (k : Nat) (f : Fn) : Bool := if f.pack then decide (f.fixed ≤ k) else decide (f.fixed = k)

/-- Which of two viable templates is more specialised (overload resolution for algorithm.hpp:96): one without a pack, or the one with more parameters
before the pack. -/
def Fn.better (f g : Fn) : Bool := g.pack && (!f.pack || decide (g.fixed < f.fixed))

/-- What lookup finds for a call at algorithm.hpp:96 or tuple_algorithms.hpp:445-446, 466-467: the library's function, and those in the associated
namespaces of the arguments. -/
def lookup (home : Fn) (foreign : List Fn) (args : List Ty) : List Fn :=
  home :: foreign.filter fun f => args.any fun t => decide (f.ns ∈ t.assoc)

/-- The function that is called: the viable one that is more specialised than all others; `none` when there is none, as
when two are equally good.  For algorithm.hpp:96 and tuple_algorithms.hpp:445-446, 466-467. -/
def callee (home : Fn) (foreign : List Fn) (args : List Ty) : Option Fn :=
  let vs := (lookup home foreign args).filter (·.viable args.length)
  match vs.filter fun f => vs.all fun g => f == g || f.better g with
  | [f] => some f
  | _ => none

/-- `stdx::for_each_n`, algorithm.hpp:57-61. -/
def stdxForEachN : Fn := ⟨.stdx, 3, true⟩

/-- `std::for_each_n(first, n, f)`, which algorithm.hpp:96 finds for iterators and operations of the standard library. -/
def stdForEachN : Fn := ⟨.std, 3, false⟩

/-- `stdx::make_tuple` and `stdx::forward_as_tuple`, tuple.hpp:473-475 and 493-495. -/
def stdxMakeTuple : Fn := ⟨.stdx, 0, true⟩

/-- `std::make_tuple` and `std::forward_as_tuple`, which tuple_algorithms.hpp:445-446 and 466-467 find for elements of types of the standard
library. -/
def stdMakeTuple : Fn := ⟨.std, 0, true⟩

variable {α σ : Type}

/-- What `for_each_butlastn` returns: `for_each_result{op, first, first_n...}` (algorithm.hpp:66, 88), or, when the function of the
standard library is called at 96, its result, which is the iterator only. -/
inductive Res (α σ : Type) where
  | result (w : World α σ) (its : List Nat)
  | iterator (w : World α σ) (it : Nat)
  deriving DecidableEq

/-- The loop of `std::for_each_n` (called at algorithm.hpp:96): `f` is applied to `n` elements in order. -/
def stdLoop (op : List Nat → World α σ → World α σ) : Nat → World α σ → Nat → Outcome (World α σ)
  | 0, w, _ => .ok w
  | n + 1, w, it => do
    let w ← Algorithm.forEachCall op w [it]
    stdLoop op n w (it + 1)

/-- `std::for_each_n(first, n, f)` of the standard library, as called at algorithm.hpp:96: `n` must not be negative; `f` is applied to `n`
elements in order, and the iterator after them returned. -/
def stdForEachNCall (op : List Nat → World α σ → World α σ) (w : World α σ) (first : Nat) (n : Int) : Outcome (Res α σ) :=
  if n < 0 then .ub
  else do
    let r ← stdLoop op n.toNat w first
    return .iterator r (first + n.toNat)

/-- The version for random access iterators, algorithm.hpp:91-97; `declared` says whether `std::for_each_n` is.  The second
argument of the call has a builtin type. -/
def butlastRand (declared : Bool) (itTy opTy : Ty) (restTys : List Ty) (op : List Nat → World α σ → World α σ) (w : World α σ)
    (first last : Nat) (n : Int) (rest : List Nat) : Outcome (Res α σ) := do
  let sz : Int := (last : Int) - (first : Int)
  match callee stdxForEachN (if declared then [stdForEachN] else []) (itTy :: .builtin :: opTy :: restTys) with
  | none => .ub
  | some f => do
    let k ← Algorithm.subPtrdiff sz (Algorithm.toPtrdiff n)
    if f.ns = .std then stdForEachNCall op w first k
    else do
      let r ← Algorithm.forEachN Algorithm.ptrdiff op w first k rest
      return .result r.1 r.2

/-- `for_each_butlastn(first, last, n, op, first_n...)`, algorithm.hpp:100-106. -/
def forEachButlastn (declared : Bool) (c : Cat) (itTy opTy : Ty) (restTys : List Ty) (op : List Nat → World α σ → World α σ)
    (w : World α σ) (first last : Nat) (n : Int) (rest : List Nat) : Outcome (Res α σ) :=
  match c with
  | .forward => do
    let r ← Algorithm.butlastFwd op w first last n rest
    return .result r.1 r.2
  | .random => butlastRand declared itTy opTy restTys op w first last n rest

/-- Whether `get<1>(r)` and `get<0>(r)` compile for the type of the result of `for_each_butlast(++first, last, mop)`, algorithm.hpp:119-123: that type is
known before anything is called, and an iterator has no elements. -/
def resultHasElements (declared : Bool) (c : Cat) (itTy opTy : Ty) : Bool :=
  match c with
  | .forward => true
  | .random =>
    match callee stdxForEachN (if declared then [stdForEachN] else []) [itTy, .builtin, opTy] with
    | some f => decide (f.ns ≠ .std)
    | none => false

/-- `initial_medial_final(first, last, iop, mop, fop)`, algorithm.hpp:114-126. -/
def initialMedialFinal (declared : Bool) (c : Cat) (itTy mopTy : Ty) (iop mop fop : Nat → World α σ → World α σ) (w : World α σ)
    (first last : Nat) : Outcome (World α σ) :=
  if resultHasElements declared c itTy mopTy then
    if first ≠ last then do
      Algorithm.derefs w.1 [first]
      let w := iop first w
      let first := first + 1
      let r ← forEachButlastn declared c itTy mopTy [] (Algorithm.unary mop) w first last 1 []
      match r with
      | .result w' (it :: _) =>
        if it ≠ last then do
          Algorithm.derefs w'.1 [it]
          return fop it w'
        else return w'
      | _ => .ub
    else .ok w
  else .ub

/-- The type `stdx::tuple<...>` of a tuple of elements whose types are given, tuple.hpp:439-441. -/
def tupleTy (tys : List Ty) : Ty := tys.foldl .inst (.cls .stdx [.stdx])

/-- A call of `make_tuple` or `forward_as_tuple` by its unqualified name, tuple_algorithms.hpp:436, 445-446, 457, 466-467: it compiles if one
function is best. -/
def makes (declared : Bool) (args : List Ty) : Outcome Unit :=
  match callee stdxMakeTuple (if declared then [stdMakeTuple] else []) args with
  | some _ => .ok ()
  | none => .ub

/-- `prepend(e)`, tuple_algorithms.hpp:443-448 and 464-469: for each tuple in `c`, a tuple of the element, joined with it; and a tuple of
all those.  Simplified: that there is no call for the element when `c` is empty is taken from the pack expansion. -/
def prepend (declared : Bool) (ty : α → Ty) (e : α) (c : List (List α)) : Outcome (List (List α)) := do
  let r ← Tuple.mapO (fun sub => do
    makes declared [ty e]
    Tuple.tupleCat [[e], sub]) c
  makes declared (r.map fun l => tupleTy (l.map ty))
  return r

/-- `cartesian_product(ts...)` and `cartesian_product_copy` of lvalues, tuple_algorithms.hpp:434-474, for elements of any types. -/
def cartesian (declared : Bool) (ty : α → Ty) : List (List α) → Outcome (List (List α))
  | [] => do
    makes declared [tupleTy []]
    return [[]]
  | first :: rest => do
    let c ← cartesian declared ty rest
    let ps ← Tuple.mapO (fun e => prepend declared ty e c) first
    Tuple.tupleCat ps

end Verif.Adl
