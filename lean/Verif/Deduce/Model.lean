import Verif.Span.Convert

/-!
# Types deduced from initialisers: `cx_vector{…}`, `cx_set{…}`, `tuple{…}`, `span{…}`

(/repo/include/stdx/cx_vector.hpp:164-165, cx_set.hpp:108-109, tuple.hpp:452, span.hpp:267-276)

Class template argument deduction chooses between the deduction guides of the library and the copy deduction candidate of
the language, `C(C<Args...>) -> C<Args...>`.  The constructors give no further candidates, because the arguments of the
template do not occur in their parameters (for a span, `arr_t` is not deduced).  Then the deduced class is initialised from
the same arguments.
-/

namespace Verif.Deduce

/-! ## Containers and tuples -/

/-- The types of arguments, after the decay by which the guides take them: `cx_vector`, `cx_set` and `tuple` types, classes
derived from them, and all other types. -/
inductive Ty where
  | atom (n : Nat)
  | vec (t : Ty) (n : Nat)
  | set (t : Ty) (n : Nat)
  | tup (ts : List Ty)
  | derived (n : Nat) (base : Ty)

/-- The class templates. -/
inductive Tmpl where
  | vec | set | tuple
  deriving DecidableEq

/-- What the language knows of the types: which converts to which, implicitly and by `static_cast`, and how (concepts.hpp:31-32,
cx_vector.hpp:33-36, cx_set.hpp:26-29); and the elements of the objects that are containers or tuples.  A type converts to
itself by copying. -/
structure World (V : Type) where
  conv : Ty → Ty → Option (V → V)
  self : ∀ t, conv t t = some id
  contents : V → List V

/-- An argument: its type and value. -/
structure Arg (V : Type) where
  ty : Ty
  val : V

/-- Whether a type is a specialisation of the template. -/
def Ty.isInst : Tmpl → Ty → Bool
  | .vec, .vec .. => true
  | .set, .set .. => true
  | .tuple, .tup _ => true
  | _, _ => false

/-- The specialisation of the template among a type and its base classes. -/
def Ty.inst? (c : Tmpl) : Ty → Option Ty
  | .derived _ b => b.inst? c
  | t => if t.isInst c then some t else none

/-- The candidates: the copy deduction candidate, and the guide of the library. -/
inductive Guide where
  | copy | user
  deriving DecidableEq

variable {V : Type}

/-- The type a guide gives: cx_vector.hpp:164-165, cx_set.hpp:108-109, tuple.hpp:452; `none` if it does not take the arguments. -/
def Guide.type (c : Tmpl) (args : List (Arg V)) : Guide → Option Ty
  | .copy =>
    match args with
    | [a] => a.ty.inst? c
    | _ => none
  | .user =>
    match c, args with
    | .vec, a :: as => some (.vec a.ty (1 + as.length))
    | .set, a :: as => some (.set a.ty (1 + as.length))
    | .tuple, as => some (.tup (as.map (·.ty)))
    | _, [] => none

/-- Which candidate is the better one: for an argument of a specialisation itself both are exact, and the copy deduction
candidate is more specialised; for a class derived from one the guide of the library is exact. -/
def Guide.better (c : Tmpl) (args : List (Arg V)) : Guide → Guide → Bool
  | .copy, .user => args.any fun a => a.ty.isInst c
  | .user, .copy => args.any fun a => !a.ty.isInst c
  | _, _ => false

/-- The candidate that is chosen. -/
def guide (c : Tmpl) (args : List (Arg V)) : Option Guide :=
  let cs := [Guide.copy, Guide.user].filter fun g => (g.type c args).isSome
  cs.find? fun g => cs.all fun h => h = g || g.better c args h

/-- The deduced type. -/
def deduce (c : Tmpl) (args : List (Arg V)) : Option Ty := (guide c args).bind fun g => g.type c args

/-- `storage{static_cast<value_type>(ts)...}` with `convertible_to<value_type>... Ts`, cx_vector.hpp:33-37, cx_set.hpp:26-29. -/
def convertAll (W : World V) (t : Ty) : List (Arg V) → Option (List V)
  | [] => some []
  | a :: as => do
    let f ← W.conv a.ty t
    let vs ← convertAll W t as
    return f a.val :: vs

/-- `C{args...}`: the type and the elements; `none` if it does not compile.  An object of the deduced class is copied; a container is
made by its constructor (cx_vector.hpp:33-37, cx_set.hpp:26-29), a tuple as an aggregate, each element from its argument
(tuple.hpp:55-60, 172). -/
def make (W : World V) (c : Tmpl) (args : List (Arg V)) : Option (Ty × List V) :=
  match guide c args with
  | none => none
  | some .copy =>
    match deduce c args, args with
    | some t, [a] => some (t, W.contents a.val)
    | _, _ => none
  | some .user =>
    match deduce c args with
    | some (.vec t n) => if args.length ≤ n then (convertAll W t args).map fun vs => (.vec t n, vs) else none
    | some (.set t n) => if args.length ≤ n then (convertAll W t args).map fun vs => (.set t n, vs) else none
    | some (.tup ts) => some (.tup ts, args.map (·.val))
    | _ => none

end Verif.Deduce

namespace Verif.Span

/-! ## Spans -/

/-- The guides for one argument, span.hpp:271-276, and the copy deduction candidate. -/
inductive SGuide where
  | builtin | arrayRef | arrayConstRef | range | copy
  deriving DecidableEq

/-- Whether the parameter of a guide binds to the source. -/
def SGuide.viable (s : Source) : SGuide → Bool
  | .builtin => s.kind = .builtin
  | .arrayRef => s.kind = .stdArray && s.lvalue && !s.const
  | .arrayConstRef => s.kind = .stdArray
  | .range => true
  | .copy => match s.kind with | .span _ => true | _ => false

/-- The order of overload resolution, smaller is better: for an rvalue `R &&` is better than a const reference, for an lvalue a
reference that adds no const; then the more specialised guide. -/
def SGuide.rank (s : Source) : SGuide → Nat
  | .builtin | .arrayRef | .copy => 0
  | .arrayConstRef => if s.lvalue && s.const then 0 else 2
  | .range => 1

/-- `std::remove_reference_t<detail::range_reference_t<R>>`, span.hpp:260-265, 276: what the iterators of an *lvalue* of the type refer
to, also for an rvalue. -/
def Source.rangeElem (s : Source) : Elem :=
  match s.kind with
  | .builtin | .span _ => s.elem
  | .stdArray => { s.elem with const := s.elem.const || s.const }
  | .range _ deep => { s.elem with const := s.elem.const || (deep && s.const) }

/-- The element type and the extent a guide gives, span.hpp:271-276. -/
def SGuide.type (s : Source) : SGuide → Elem × Nat
  | .builtin | .arrayRef => (s.elem, s.len)
  | .arrayConstRef => ({ s.elem with const := true }, s.len)
  | .range => (s.rangeElem, dynamicExtent)
  | .copy => (s.elem, match s.kind with | .span true => dynamicExtent | _ => s.len)

/-- The guide that is chosen for `span{s}`. -/
def sguide (s : Source) : Option SGuide :=
  let cs := ([.builtin, .arrayRef, .arrayConstRef, .range, .copy] : List SGuide).filter (SGuide.viable s)
  cs.find? fun g => cs.all fun h => h = g || decide (g.rank s < h.rank s)

/-- `span{s}`: the deduced element type and extent, and the span; `none` if it does not compile. -/
def deduceMake (C : Classes) (s : Source) : Option ((Elem × Nat) × Made) := do
  let g ← sguide s
  let m ← make C (g.type s).1 (g.type s).2 true s
  return (g.type s, m)

end Verif.Span
