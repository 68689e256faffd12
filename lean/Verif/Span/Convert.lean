import Verif.Span.Model

/-!
# What a `stdx::span` can be made from (/repo/include/stdx/span.hpp:95-138)

`Verif.Span.Model` takes the elements of a source to have the element type of the span and the
constructor to be known.  Here the elements have types, and the constructor is chosen by overload
resolution.  Built-in arrays are lvalues; null pointers are not sources.
-/

namespace Verif.Span

/-- The element type of a span or of a source, span.hpp:60-69: a class (or another object type), const or not. -/
structure Elem where
  cls : Nat
  const : Bool
  deriving DecidableEq

/-- Which classes have which accessible and unambiguous base classes. The members `ptr` of
span.hpp:65 are initialised by the conversions of the language, which include the one to a base class. -/
structure Classes where
  derived : Nat → Nat → Bool

/-- How the elements of a range are stored, for `std::to_address(std::begin(r))`, span.hpp:123 and 129: one after the other;
elsewhere, with iterators that have an `operator->` (`std::deque`, `std::list`), which is all `std::to_address` asks
for; or with iterators that have none (`std::vector<bool>`). -/
inductive Store
  | contiguous
  | arrow
  | noArrow
  deriving DecidableEq

/-- The kinds of sources with a constructor of their own, and other ranges, span.hpp:95-138. For a span, whether its extent is
dynamic; for a range, whether a const range has const elements. -/
inductive Kind
  | builtin
  | stdArray
  | span (dynamic : Bool)
  | range (store : Store) (deep : Bool)
  deriving DecidableEq

/-- An expression from which a span is made (the arguments of the constructors span.hpp:95-138): the `len` elements from position `pos`. -/
structure Source where
  kind : Kind
  elem : Elem
  const : Bool
  lvalue : Bool
  pos : Nat
  len : Nat

/-- The type a pointer to the first element points to: `std::data(arr)`, `std::begin(std::forward<R>(r))` (where an rvalue binds
to a const reference) or `s.data()`, span.hpp:97, 105, 115, 123, 128, 133 and 138. -/
def Source.pointee (s : Source) : Elem :=
  match s.kind with
  | .builtin | .span _ => s.elem
  | .stdArray => { s.elem with const := s.elem.const || s.const || !s.lvalue }
  | .range _ deep => { s.elem with const := s.elem.const || (deep && (s.const || !s.lvalue)) }

/-- Whether a pointer to `U` converts to a pointer to `T`, as for `ptr{…}`, span.hpp:97, 105, 115, 123, 129, 133 and 138. -/
def ptrConv (C : Classes) (U T : Elem) : Bool := (U.cls = T.cls || C.derived U.cls T.cls) && (!U.const || T.const)

/-- The constructors with one parameter: from `std::array &` (span.hpp:95-100), `std::array const &` (102-108), a built-in array (113-118),
a span (131-138) and anything (120-129). -/
inductive Ctor
  | arrayRef
  | arrayConstRef
  | builtin
  | span
  | range
  deriving DecidableEq

/-- Whether template argument deduction gives the constructor a parameter that binds to the source: span.hpp:95-96, 102-104, 111-114, 121,
126, 131-137. Only built-in arrays have the element type of the span in the parameter. -/
def Ctor.viable (T : Elem) (s : Source) : Ctor → Bool
  | .arrayRef => s.kind = .stdArray && s.lvalue && !s.const
  | .arrayConstRef => s.kind = .stdArray
  | .builtin => s.kind = .builtin && s.elem.cls = T.cls && (!s.elem.const || T.const)
  | .span => match s.kind with | .span _ => true | _ => false
  | .range => true

/-- Which constructors are explicit, span.hpp:96, 103, 114, 122, 127, 133 and 137. -/
def Ctor.explicit (ext : Nat) (s : Source) : Ctor → Bool
  | .arrayRef | .arrayConstRef | .builtin => false
  | .span => ext ≠ dynamicExtent && s.kind = .span true
  | .range => true

/-- The order of overload resolution between the parameters of span.hpp:95-138, smaller is better. For an rvalue, an rvalue reference is
better than a const reference; for an lvalue, a reference that adds no const; then the more specialised template. -/
def Ctor.rank (T : Elem) (s : Source) : Ctor → Nat
  | .arrayRef => 0
  | .arrayConstRef | .span => if s.lvalue && s.const then 0 else 2
  | .builtin => if T.const && !s.elem.const then 2 else 0
  | .range => 1

/-- The constructors that can be called for `span<T, Extent>{s}` (`direct`) or for an implicit conversion, which leaves explicit ones
out, span.hpp:95-138. The copy and move constructors, chosen for some spans of the same type, give what `.span` gives. -/
def candidates (T : Elem) (ext : Nat) (direct : Bool) (s : Source) : List Ctor :=
  ([.arrayRef, .arrayConstRef, .builtin, .span, .range] : List Ctor).filter fun c => c.viable T s && (direct || !c.explicit ext s)

/-- The one that is chosen, span.hpp:95-138: it must be better than every other one. -/
def choose (T : Elem) (ext : Nat) (direct : Bool) (s : Source) : Option Ctor :=
  (candidates T ext direct s).find? fun c =>
    (candidates T ext direct s).all fun d => d = c || decide (c.rank T s < d.rank T s)

/-- The span that is made by span.hpp:95-138, and whether its elements are those of one array of the element type of the span. -/
structure Made where
  span : Span
  similar : Bool
  deriving DecidableEq

/-- `span<T, Extent>` from one argument, span.hpp:95-138; `none` if it does not compile. -/
def make (C : Classes) (T : Elem) (ext : Nat) (direct : Bool) (s : Source) : Option Made :=
  let similar : Bool := s.elem.cls = T.cls && match s.kind with | .range st _ => st = .contiguous | _ => true
  if ptrConv C s.pointee T then
    match choose T ext direct s with
    | none => none
    | some .span => some ⟨ofPtrCount ext (some s.pos) s.len, similar⟩
    | some .range =>
      match s.kind with
      | .range .noArrow _ => none
      | _ => some ⟨ofRange ext s.pos (s.pos + s.len), similar⟩
    | some _ => (ofArray ext s.pos s.len).map (⟨·, similar⟩)
  else none

variable {α : Type}

/-- `operator[]`, span.hpp:177-179, on what `make` gives. If the elements are not those of an array of the element type, the pointer is to
one object (an element, or the part of it that is of the base class), and pointer arithmetic beyond that is undefined. -/
def Made.get (mem : List α) (m : Made) (i : Nat) : Outcome α :=
  if m.similar || i = 0 then Span.get mem m.span i else .ub

end Verif.Span
