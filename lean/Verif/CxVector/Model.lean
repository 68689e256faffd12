import Verif.Buf.Model

/-!
# Model of `stdx::cx_vector`  (/repo/include/stdx/cx_vector.hpp)

The reverse iterators (60-82) are modelled in Verif/Reverse (C102).
-/

namespace Verif.CxVector

open Verif.Buf

/-- `front()`, cx_vector.hpp:84-90: `storage[0]`. -/
def front {α : Type} (b : Buf α) : Outcome α := arrGet b.storage 0

/-- `back()`, cx_vector.hpp:91-96: `storage[current_size - 1]`. -/
def back {α : Type} (b : Buf α) : Outcome α := arrGet b.storage (szDec b.size)

/-- `operator[]` and `get<I>()`, cx_vector.hpp:103-119. -/
def index {α : Type} (b : Buf α) (i : Nat) : Outcome α := arrGet b.storage i

/-- Assignment through the reference returned by `operator[]`, cx_vector.hpp:103-106. -/
def assign {α : Type} (b : Buf α) (i : Nat) (x : α) : Outcome (Buf α) := do
  let st ← arrSet b.storage i x
  return ⟨st, b.size⟩

/-- `resize_and_overwrite`, cx_vector.hpp:143-147: the callback receives the whole storage
(all `N` elements), may overwrite it and returns the new size.  A callback that writes
outside the array is undefined behaviour. -/
def resizeAndOverwrite {α : Type} (b : Buf α) (f : List α → List α × Nat) : Outcome (Buf α) :=
  let r := f b.storage
  if r.1.length = b.storage.length then .ok ⟨r.1, r.2⟩ else .ub

/-- The loop of `operator==`, cx_vector.hpp:155-159; `ne` is the `!=` of the element type, which
need not
be the negation of an equivalence (floating-point numbers). -/
def eqLoop {α : Type} (ne : α → α → Bool) (s t : List α) (i : Nat) : Nat → Outcome Bool
  | 0 => .ok true
  | rem + 1 => do
    let x ← arrGet s i
    let y ← arrGet t i
    if ne x y then return false else eqLoop ne s t (i + 1) rem

/-- `operator==`, cx_vector.hpp:149-161. -/
def eq {α : Type} (ne : α → α → Bool) (v w : Buf α) : Outcome Bool :=
  if v.size ≠ w.size then .ok false else eqLoop ne v.storage w.storage 0 v.size

/-- Public operations (cx_vector.hpp:39-147). -/
inductive Op (α : Type) where
  | pushBack (x : α)
  | popBack
  | front
  | back
  | index (i : Nat)
  | assign (i : Nat) (x : α)
  | size
  | empty
  | full
  | clear
  | resize (f : List α → List α × Nat)
  | iterate

/-- Returned values (cx_vector.hpp:84-140). -/
inductive Out (α : Type) where
  | unit
  | val (x : α)
  | nat (n : Nat)
  | bool (b : Bool)
  | list (l : List α)
  deriving DecidableEq, Repr

/-- One operation on a vector of capacity `N`: `size` (98), `full`/`empty` (121-126),
`clear` (128), `push_back` (130-137), `pop_back` (138-140), iteration (39-59).  Source:
cx_vector.hpp. -/
def step {α : Type} (N : Nat) (b : Buf α) : Op α → Outcome (Buf α × Out α)
  | .pushBack x => do let b' ← append b x; return (b', .val x)
  | .popBack => do let (b', x) ← Buf.popBack b; return (b', .val x)
  | .front => do let x ← front b; return (b, .val x)
  | .back => do let x ← back b; return (b, .val x)
  | .index i => do let x ← index b i; return (b, .val x)
  | .assign i x => do let b' ← assign b i x; return (b', .unit)
  | .size => .ok (b, .nat b.size)
  | .empty => .ok (b, .bool (b.size == 0))
  | .full => .ok (b, .bool (b.size == N))
  | .clear => .ok (⟨b.storage, 0⟩, .unit)
  | .resize f => do let b' ← resizeAndOverwrite b f; return (b', .unit)
  | .iterate => do let l ← elems b; return (b, .list l)

/-- A history (cx_vector.hpp:39-147). -/
def run {α : Type} (N : Nat) (b : Buf α) : List (Op α) → Outcome (Buf α × List (Out α))
  | [] => .ok (b, [])
  | o :: os => do
    let (b1, r) ← step N b o
    let (b2, rs) ← run N b1 os
    return (b2, r :: rs)

end Verif.CxVector
