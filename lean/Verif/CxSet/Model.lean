import Verif.Buf.Model

/-!
# Model of `stdx::cx_set`  (/repo/include/stdx/cx_set.hpp)

The `operator==` of the keys is any function to `bool` (`BEq`).  C29 and C30 are about keys whose
`==` is equality of values; for others see `Verif.CxSet.PropsEquiv`.
-/

namespace Verif.CxSet

open Verif.Buf

variable {α : Type} [BEq α]

/-- `contains`, cx_set.hpp:57-64. -/
def contains (b : Buf α) (k : α) : Outcome Bool := do
  let r ← find (fun x => x == k) b
  return r.isSome

/-- `insert` (both overloads), cx_set.hpp:66-79. -/
def insert (b : Buf α) (k : α) : Outcome (Buf α × Bool) := do
  if ← contains b k then return (b, false)
  let b' ← append b k
  return (b', true)

/-- `erase`, cx_set.hpp:81-89. -/
def erase (b : Buf α) (k : α) : Outcome (Buf α × Nat) := eraseIf (fun x => x == k) b

/-- `merge`, cx_set.hpp:91-95: the argument is passed by value, so even `s.merge(s)`
iterates over a copy; `xs` are the elements of that copy in iteration order. -/
def merge (b : Buf α) : List α → Outcome (Buf α)
  | [] => .ok b
  | x :: xs => do
    let (b', _) ← insert b x
    merge b' xs

/-- Public operations (cx_set.hpp:31-105). -/
inductive Op (α : Type) where
  | insert (k : α)
  | erase (k : α)
  | merge (xs : List α)
  | popBack
  | clear
  | contains (k : α)
  | size
  | empty
  | iterate

/-- Returned values (cx_set.hpp:31-105). -/
inductive Out (α : Type) where
  | unit
  | val (x : α)
  | nat (n : Nat)
  | bool (b : Bool)
  | list (l : List α)
  deriving DecidableEq, Repr

/-- One operation: `size` (52-54), `empty` (97-99), `clear` (101), `pop_back` (103-105)
(cx_set.hpp:31-105). -/
def step (b : Buf α) : Op α → Outcome (Buf α × Out α)
  | .insert k => do let (b', r) ← insert b k; return (b', .bool r)
  | .erase k => do let (b', r) ← erase b k; return (b', .nat r)
  | .merge xs => do let b' ← merge b xs; return (b', .unit)
  | .popBack => do let (b', x) ← Buf.popBack b; return (b', .val x)
  | .clear => .ok (⟨b.storage, 0⟩, .unit)
  | .contains k => do let r ← contains b k; return (b, .bool r)
  | .size => .ok (b, .nat b.size)
  | .empty => .ok (b, .bool (b.size == 0))
  | .iterate => do let l ← elems b; return (b, .list l)

/-- A history (cx_set.hpp:31-105). -/
def run (b : Buf α) : List (Op α) → Outcome (Buf α × List (Out α))
  | [] => .ok (b, [])
  | o :: os => do
    let (b1, r) ← step b o
    let (b2, rs) ← run b1 os
    return (b2, r :: rs)

end Verif.CxSet
