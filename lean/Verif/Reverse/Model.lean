import Verif.Buf.Model

/-!
# Model of reverse traversal of the contiguous containers

`span` (/repo/include/stdx/span.hpp), `ct_string` (/repo/include/stdx/ct_string.hpp) and `cx_vector`
(/repo/include/stdx/cx_vector.hpp). Iterators are positions in one array with the type they have, so that the conversions
of the return statements can be modelled: an expression that does not compile is `none`. `std::reverse_iterator` is that
of the standard library: its constructor from an iterator is explicit, and it converts implicitly from a reverse iterator
whose iterator converts. Member functions of a class template are instantiated only when they are used, so a member that
does not compile shows only in programs that call it.
-/

namespace Verif.Reverse

open Verif.Buf

/-- The iterator types of the containers: `T *` or `T const *`, and `std::reverse_iterator` of these (span.hpp:76-79,
cx_vector.hpp:27-30). -/
inductive ITy
  | ptr (const : Bool)
  | rev (const : Bool)
deriving DecidableEq, Repr

/-- An iterator: its type, and the position in the array of the element it points to (of the one behind the element it
denotes, for a reverse iterator, as `base()` gives it). (span.hpp:76-79, cx_vector.hpp:27-30) -/
structure Iter where
  ty : ITy
  pos : Nat
deriving DecidableEq, Repr

/-- `T *` converts to `T const *` and each to itself. (Language rule used at span.hpp:147-149, 153-156.) -/
def constOk (a b : Bool) : Bool := !a || b

/-- The implicit conversion of `return x;` to the declared return type (span.hpp:150-170, cx_vector.hpp:39-82). From a
pointer to a reverse iterator there is none, as the constructor is explicit. -/
def implicitly (t : ITy) (x : Iter) : Option Iter :=
  match x.ty, t with
  | .ptr a, .ptr b => if constOk a b then some ⟨t, x.pos⟩ else none
  | .rev a, .rev b => if constOk a b then some ⟨t, x.pos⟩ else none
  | .ptr _, .rev _ => none
  | .rev _, .ptr _ => none

/-- `std::reverse_iterator{x}` for a pointer, span.hpp:151, 155, 165 and 169. -/
def explicitly (x : Iter) : Option Iter :=
  match x.ty with
  | .ptr c => some ⟨.rev c, x.pos⟩
  | .rev _ => none

/-- `++` on a reverse iterator, ct_string.hpp:60; before the array it is undefined, which in a constant expression does not
compile. -/
def incr (x : Iter) : Option Iter :=
  match x.ty with
  | .rev c => if x.pos = 0 then none else some ⟨.rev c, x.pos - 1⟩
  | .ptr _ => none

/-- `for (auto it = first; it != last; ++it)` over reverse iterators, collecting `*it` (the element before its position).
The loop a user writes with span.hpp:150-170 (test/span.cpp:271-285, docs/cx_vector.adoc:37-38). -/
def walk {α : Type} (mem : List α) : Nat → Nat → Outcome (List α)
  | 0, last => if last = 0 then .ok [] else .ub
  | p + 1, last =>
    if last = p + 1 then .ok []
    else do
      let x ← arrGet mem p
      let xs ← walk mem p last
      return x :: xs

/-- A loop from one reverse iterator (span.hpp:150-156) to another of the same type (164-170); `none` if it does not compile. -/
def loop {α : Type} (mem : List α) (first last : Option Iter) : Option (Outcome (List α)) :=
  match first, last with
  | some f, some l =>
    match f.ty, l.ty with
    | .rev a, .rev b => if a = b then some (walk mem f.pos l.pos) else none
    | _, _ => none
  | _, _ => none

/-- How the loop is written: with `rbegin` and `rend`, or with `crbegin` and `crend` (span.hpp:150-170, cx_vector.hpp:60-82). -/
inductive Form
  | plain
  | const
deriving DecidableEq, Repr

/-! ## `span` -/

/-- `begin()` and `cbegin()`, span.hpp:144-149, for a span from position `o` of elements that are const or not. -/
def spanBegin (elemConst : Bool) (o : Nat) : Form → Option Iter
  | .plain => implicitly (.ptr elemConst) ⟨.ptr elemConst, o⟩
  | .const => implicitly (.ptr true) ⟨.ptr elemConst, o⟩

/-- `end()` and `cend()`, span.hpp:158-163. -/
def spanEnd (elemConst : Bool) (o n : Nat) : Form → Option Iter
  | .plain => implicitly (.ptr elemConst) ⟨.ptr elemConst, o + n⟩
  | .const => implicitly (.ptr true) ⟨.ptr elemConst, o + n⟩

/-- `rbegin()` and `crbegin()`, span.hpp:150-156. -/
def spanRBegin (elemConst : Bool) (o n : Nat) (f : Form) : Option Iter := do
  let r ← explicitly (← spanEnd elemConst o n f)
  match f with
  | .plain => implicitly (.rev elemConst) r
  | .const => implicitly (.rev true) r

/-- `rend()` and `crend()`, span.hpp:164-170. -/
def spanREnd (elemConst : Bool) (o : Nat) (f : Form) : Option Iter := do
  let r ← explicitly (← spanBegin elemConst o f)
  match f with
  | .plain => implicitly (.rev elemConst) r
  | .const => implicitly (.rev true) r

/-- Reverse traversal of a span of `n` elements from position `o`, span.hpp:150-170. -/
def spanReversed {α : Type} (elemConst : Bool) (mem : List α) (o n : Nat) (f : Form) : Option (Outcome (List α)) :=
  loop mem (spanRBegin elemConst o n f) (spanREnd elemConst o f)

/-! ## `ct_string` -/

/-- `rbegin()`, ct_string.hpp:59-61: `++value.rbegin()` of the constant array of `N` characters. `std::crbegin` calls it as
well. -/
def stringRBegin (value : List Char) : Option Iter := incr ⟨.rev true, value.length⟩

/-- `rend()`, ct_string.hpp:62-64. -/
def stringREnd (_value : List Char) : Option Iter := some ⟨.rev true, 0⟩

/-- Reverse traversal of a `ct_string`, ct_string.hpp:59-64. -/
def stringReversed (value : List Char) : Option (Outcome (List Char)) := loop value (stringRBegin value) (stringREnd value)

/-! ## `cx_vector` -/

/-- Whether the iterators of a form are to const elements: those of a const vector are, and those of the const form. The
overloads of cx_vector.hpp:39-82. -/
def vectorConst (objConst : Bool) : Form → Bool
  | .plain => objConst
  | .const => true

/-- `begin()` and `cbegin()`, cx_vector.hpp:39-48. -/
def vectorBegin (objConst : Bool) (f : Form) : Option Iter :=
  let c := vectorConst objConst f
  implicitly (.ptr c) ⟨.ptr c, 0⟩

/-- `end()` and `cend()`, cx_vector.hpp:50-58. -/
def vectorEnd {α : Type} (objConst : Bool) (b : Buf α) (f : Form) : Option Iter := do
  let x ← vectorBegin objConst f
  implicitly (.ptr (vectorConst objConst f)) ⟨x.ty, x.pos + b.size⟩

/-- `rbegin()` and `crbegin()`, cx_vector.hpp:60-70: `return end();`. -/
def vectorRBegin {α : Type} (objConst : Bool) (b : Buf α) (f : Form) : Option Iter := do
  implicitly (.rev (vectorConst objConst f)) (← vectorEnd objConst b f)

/-- `rend()` and `crend()`, cx_vector.hpp:72-82: `return begin();`. -/
def vectorREnd (objConst : Bool) (f : Form) : Option Iter := do
  implicitly (.rev (vectorConst objConst f)) (← vectorBegin objConst f)

/-- Reverse traversal with `rbegin` and `rend`, cx_vector.hpp:60-82. -/
def vectorReversed {α : Type} (objConst : Bool) (b : Buf α) (f : Form) : Option (Outcome (List α)) :=
  loop b.storage (vectorRBegin objConst b f) (vectorREnd objConst f)

/-- Reverse traversal with `std::reverse_iterator{v.end()}` and `std::reverse_iterator{v.begin()}`, written by the caller:
`begin` and `end` of cx_vector.hpp:39-58. -/
def vectorReversedByHand {α : Type} (objConst : Bool) (b : Buf α) (f : Form) : Option (Outcome (List α)) :=
  loop b.storage (do explicitly (← vectorEnd objConst b f)) (do explicitly (← vectorBegin objConst f))

end Verif.Reverse
