import Verif.Buf.Model

/-!
# Model of `stdx::cx_map`  (/repo/include/stdx/cx_map.hpp)

An element `cx_map_value{key, value}` is a pair.  The `operator==` of the keys is any function to
`bool` (`BEq`).  C28 and C30 are about keys whose `==` is equality of values; for others see
`Verif.CxMap.PropsEquiv`.
-/

namespace Verif.CxMap

open Verif.Buf

variable {κ ν : Type} [BEq κ]

/-- `contains`, cx_map.hpp:103-110. -/
def contains (b : Buf (κ × ν)) (k : κ) : Outcome Bool := do
  let r ← find (fun e => e.1 == k) b
  return r.isSome

/-- `get`, cx_map.hpp:84-101: falls off into `unreachable()` (undefined) if the key is
missing. -/
def get (b : Buf (κ × ν)) (k : κ) : Outcome ν := do
  match ← find (fun e => e.1 == k) b with
  | some i => do let e ← arrGet b.storage i; return e.2
  | none => .ub

/-- Assignment through the reference returned by `get`, cx_map.hpp:84-92. -/
def assignGet (b : Buf (κ × ν)) (k : κ) (v : ν) : Outcome (Buf (κ × ν)) := do
  match ← find (fun e => e.1 == k) b with
  | some i => do
    let e ← arrGet b.storage i
    let st ← arrSet b.storage i (e.1, v)
    return ⟨st, b.size⟩
  | none => .ub

/-- `insert_or_assign` and `put`, cx_map.hpp:112-125. -/
def insertOrAssign (b : Buf (κ × ν)) (k : κ) (v : ν) : Outcome (Buf (κ × ν) × Bool) := do
  match ← find (fun e => e.1 == k) b with
  | some i => do
    let e ← arrGet b.storage i
    let st ← arrSet b.storage i (e.1, v)
    return (⟨st, b.size⟩, false)
  | none => do
    let b' ← append b (k, v)
    return (b', true)

/-- `erase`, cx_map.hpp:127-135. -/
def erase (b : Buf (κ × ν)) (k : κ) : Outcome (Buf (κ × ν) × Nat) := eraseIf (fun e => e.1 == k) b

/-- Public operations (cx_map.hpp:45-135). -/
inductive Op (κ ν : Type) where
  | put (k : κ) (v : ν)
  | erase (k : κ)
  | popBack
  | clear
  | contains (k : κ)
  | get (k : κ)
  | assignGet (k : κ) (v : ν)
  | size
  | empty
  | full
  | iterate

/-- Returned values (cx_map.hpp:45-135). -/
inductive Out (κ ν : Type) where
  | unit
  | val (v : ν)
  | pair (k : κ) (v : ν)
  | nat (n : Nat)
  | bool (b : Bool)
  | list (l : List (κ × ν))
  deriving DecidableEq, Repr

/-- One operation on a map of capacity `N`: `size` (66-68), `full`/`empty` (70-76), `clear` (78),
`pop_back` (80-82) (cx_map.hpp:45-135). -/
def step (N : Nat) (b : Buf (κ × ν)) : Op κ ν → Outcome (Buf (κ × ν) × Out κ ν)
  | .put k v => do let (b', r) ← insertOrAssign b k v; return (b', .bool r)
  | .erase k => do let (b', r) ← erase b k; return (b', .nat r)
  | .popBack => do let (b', x) ← Buf.popBack b; return (b', .pair x.1 x.2)
  | .clear => .ok (⟨b.storage, 0⟩, .unit)
  | .contains k => do let r ← contains b k; return (b, .bool r)
  | .get k => do let v ← get b k; return (b, .val v)
  | .assignGet k v => do let b' ← assignGet b k v; return (b', .unit)
  | .size => .ok (b, .nat b.size)
  | .empty => .ok (b, .bool (b.size == 0))
  | .full => .ok (b, .bool (b.size == N))
  | .iterate => do let l ← elems b; return (b, .list l)

/-- A history (cx_map.hpp:45-135). -/
def run (N : Nat) (b : Buf (κ × ν)) :
    List (Op κ ν) → Outcome (Buf (κ × ν) × List (Out κ ν))
  | [] => .ok (b, [])
  | o :: os => do
    let (b1, r) ← step N b o
    let (b2, rs) ← run N b1 os
    return (b2, r :: rs)

end Verif.CxMap
