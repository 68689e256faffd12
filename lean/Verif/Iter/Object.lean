import Verif.Iter.Model

/-!
# `counting_iterator` objects and the references they give (/repo/include/stdx/iterator.hpp:37-118)

`Verif.Iter.Model` takes an iterator to be the number it holds.  Here iterators are objects with a lifetime: `operator*`
returns a reference to the member `i` of the object it is called on, so the reference is to the iterator itself.
-/

namespace Verif.Iter

/-- The iterator objects made so far, by number: what the member `i` (iterator.hpp:117) of each holds, `none` once the object is destroyed. -/
abbrev Store := List (Option Int)

/-- The object `a` if it exists, for the uses of `*this` and of parameters in iterator.hpp:47-110. -/
def Store.obj (s : Store) (a : Nat) : Outcome Int :=
  match s[a]? with
  | some (some v) => .ok v
  | _ => .ub

/-- `counting_iterator{v}`, iterator.hpp:117-120: a new object, and its number. -/
def Store.new (s : Store) (v : Int) : Store × Nat := (s ++ [some v], s.length)

/-- The implicit copy constructor of iterator.hpp:38-118. -/
def Store.copy (s : Store) (a : Nat) : Outcome (Store × Nat) := do
  let v ← s.obj a
  return s.new v

/-- The end of the lifetime of an object of iterator.hpp:38-118. -/
def Store.destroy (s : Store) (a : Nat) : Outcome Store := do
  let _ ← s.obj a
  return s.set a none

/-- `*it`, iterator.hpp:47-48: the reference is to the member of the object `a`, so it is given by the number of that object. -/
def Store.deref (s : Store) (a : Nat) : Outcome Nat := do
  let _ ← s.obj a
  return a

/-- Reading through a reference that `operator*` (iterator.hpp:47-48) returned. -/
def Store.read (s : Store) (r : Nat) : Outcome Int := s.obj r

/-- Writing through the reference that `operator*` of a non-const iterator (iterator.hpp:47) returned. -/
def Store.write (s : Store) (r : Nat) (v : Int) : Outcome Store := do
  let _ ← s.obj r
  return s.set r (some v)

/-- `++it`, iterator.hpp:50-53, on an object. -/
def Store.inc (t : ITy) (s : Store) (a : Nat) : Outcome Store := do
  let v ← s.obj a
  let w ← Iter.inc t v
  return s.set a (some w)

/-- `--it`, iterator.hpp:59-62, on an object. -/
def Store.dec (t : ITy) (s : Store) (a : Nat) : Outcome Store := do
  let v ← s.obj a
  let w ← Iter.dec t v
  return s.set a (some w)

/-- `it += d`, `advance`, iterator.hpp:69-80, on an object. -/
def Store.add (t : ITy) (s : Store) (a : Nat) (d : Int) : Outcome Store := do
  let v ← s.obj a
  let w ← Iter.addAssign t v d
  return s.set a (some w)

/-- `*std::reverse_iterator{it}`: `auto tmp = it; return *--tmp;`, with the operators of iterator.hpp:47 and 59-62; `tmp` ends with the function.  The result
is the reference. -/
def Store.reverseDeref (t : ITy) (s : Store) (a : Nat) : Outcome (Store × Nat) := do
  let (s, tmp) ← s.copy a
  let s ← s.dec t tmp
  let r ← s.deref tmp
  let s ← s.destroy tmp
  return (s, r)

/-- `*(it + d)` bound to a reference: the iterator that `operator+` (iterator.hpp:82-87) returns is a temporary, which ends with the full
expression. -/
def Store.plusDeref (t : ITy) (s : Store) (a : Nat) (d : Int) : Outcome (Store × Nat) := do
  let (s, tmp) ← s.copy a
  let s ← s.add t tmp d
  let r ← s.deref tmp
  let s ← s.destroy tmp
  return (s, r)

/-- `T x = *(it + d)`, the value is read before the end of the full expression (iterator.hpp:47 and 82-87). -/
def Store.plusValue (t : ITy) (s : Store) (a : Nat) (d : Int) : Outcome (Store × Int) := do
  let (s, tmp) ← s.copy a
  let s ← s.add t tmp d
  let r ← s.deref tmp
  let v ← s.read r
  let s ← s.destroy tmp
  return (s, v)

/-- What a user does with iterators (iterator.hpp:47-80). -/
inductive Op where
  | new (v : Int) | copy (a : Nat) | destroy (a : Nat) | inc (a : Nat) | dec (a : Nat) | add (a : Nat) (d : Int)
  | write (a : Nat) (v : Int)

/-- One operation; `write a v` is `*a = v` (iterator.hpp:47). -/
def Store.step (t : ITy) (s : Store) : Op → Outcome Store
  | .new v => .ok (s.new v).1
  | .copy a => do let r ← s.copy a; return r.1
  | .destroy a => s.destroy a
  | .inc a => s.inc t a
  | .dec a => s.dec t a
  | .add a d => s.add t a d
  | .write a v => do let r ← s.deref a; s.write r v

/-- Operations one after the other (iterator.hpp:47-80). -/
def Store.run (t : ITy) : Store → List Op → Outcome Store
  | s, [] => .ok s
  | s, o :: os => do let s ← s.step t o; s.run t os

end Verif.Iter
