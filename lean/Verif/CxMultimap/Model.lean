import Verif.CxMap.Model
import Verif.CxSet.Model

/-!
# Model of `stdx::cx_multimap`  (/repo/include/stdx/cx_multimap.hpp)

`storage` is a `cx_map<Key, cx_set<Value, ValueN>, KeyN>` (cx_multimap.hpp:17-19).
-/

namespace Verif.CxMultimap

open Verif.Buf

variable {κ ν : Type} [BEq κ] [BEq ν]

/-- The underlying map of sets (cx_multimap.hpp:17-19). -/
abbrev MM (κ ν : Type) := Buf (κ × Buf ν)

/-- Template arguments `KeyN`, `ValueN`, and the value-initialised value `d`
(cx_multimap.hpp:14-16). -/
structure Cfg (ν : Type) where
  KeyN : Nat
  ValueN : Nat
  d : ν

/-- `insert(k, v)`, cx_multimap.hpp:54-60.  `set_t{v}` does not compile when `ValueN` is 0;
that case is the `none` branch. -/
def insert (c : Cfg ν) (b : MM κ ν) (k : κ) (v : ν) : Outcome (MM κ ν) := do
  if ← CxMap.contains b k then
    let s ← CxMap.get b k
    let (s', _) ← CxSet.insert s v
    CxMap.assignGet b k s'
  else
    match ofList c.ValueN c.d [v] with
    | some s => do let (b', _) ← CxMap.insertOrAssign b k s; return b'
    | none => .ub

/-- `insert(k)`, cx_multimap.hpp:61-65. -/
def insertKey (c : Cfg ν) (b : MM κ ν) (k : κ) : Outcome (MM κ ν) := do
  if ← CxMap.contains b k then
    return b
  else
    let (b', _) ← CxMap.insertOrAssign b k (init c.ValueN c.d)
    return b'

/-- `erase(key)`, cx_multimap.hpp:70-72. -/
def eraseKey (b : MM κ ν) (k : κ) : Outcome (MM κ ν × Nat) := CxMap.erase b k

/-- `erase(k, v)`, cx_multimap.hpp:73-83: erases through the reference, then drops the key
if the set is empty. -/
def erase (b : MM κ ν) (k : κ) (v : ν) : Outcome (MM κ ν × Nat) := do
  if ← CxMap.contains b k then
    let s ← CxMap.get b k
    let (s', r) ← CxSet.erase s v
    let b1 ← CxMap.assignGet b k s'
    if s'.size = 0 then
      let (b2, _) ← CxMap.erase b1 k
      return (b2, r)
    else return (b1, r)
  else return (b, 0)

/-- `contains(k, v)`, cx_multimap.hpp:101-104. -/
def contains (b : MM κ ν) (k : κ) (v : ν) : Outcome Bool := do
  if ← CxMap.contains b k then
    let s ← CxMap.get b k
    CxSet.contains s v
  else return false

/-- Any `cx_set` operation `o` called through the reference that `get(k)` returns,
cx_multimap.hpp:85-92 (`get` of a missing key is undefined). -/
def onSet (b : MM κ ν) (k : κ) (o : CxSet.Op ν) : Outcome (MM κ ν × CxSet.Out ν) := do
  let s ← CxMap.get b k
  let (s', r) ← CxSet.step s o
  let b' ← CxMap.assignGet b k s'
  return (b', r)

/-- Public operations; `put` (66-68) is the same as `insert` (cx_multimap.hpp:28-106). -/
inductive Op (κ ν : Type) where
  | insert (k : κ) (v : ν)
  | insertKey (k : κ)
  | eraseKey (k : κ)
  | erase (k : κ) (v : ν)
  | clear
  | containsKey (k : κ)
  | contains (k : κ) (v : ν)
  | get (k : κ)
  | onSet (k : κ) (o : CxSet.Op ν)
  | size
  | empty
  | keys

/-- Returned values; `set` is what iterating over the returned set yields (cx_multimap.hpp:28-106).
-/
inductive Out (κ ν : Type) where
  | unit
  | nat (n : Nat)
  | bool (b : Bool)
  | set (l : List ν)
  | keys (l : List κ)
  | fromSet (r : CxSet.Out ν)
  deriving DecidableEq, Repr

/-- One operation: `size` (49-51), `get` (85-92), `empty` (94-96), `contains` (98-104), `clear`
(106); `keys` iterates `begin() … end()` (28-47) (cx_multimap.hpp:28-106). -/
def step (c : Cfg ν) (b : MM κ ν) : Op κ ν → Outcome (MM κ ν × Out κ ν)
  | .insert k v => do let b' ← insert c b k v; return (b', .unit)
  | .insertKey k => do let b' ← insertKey c b k; return (b', .unit)
  | .eraseKey k => do let (b', r) ← eraseKey b k; return (b', .nat r)
  | .erase k v => do let (b', r) ← erase b k v; return (b', .nat r)
  | .clear => .ok (⟨b.storage, 0⟩, .unit)
  | .containsKey k => do let r ← CxMap.contains b k; return (b, .bool r)
  | .contains k v => do let r ← contains b k v; return (b, .bool r)
  | .get k => do let s ← CxMap.get b k; let l ← elems s; return (b, .set l)
  | .onSet k o => do let (b', r) ← onSet b k o; return (b', .fromSet r)
  | .size => .ok (b, .nat b.size)
  | .empty => .ok (b, .bool (b.size == 0))
  | .keys => do let l ← elems b; return (b, .keys (l.map Prod.fst))

/-- A history (cx_multimap.hpp:28-106). -/
def run (c : Cfg ν) (b : MM κ ν) : List (Op κ ν) → Outcome (MM κ ν × List (Out κ ν))
  | [] => .ok (b, [])
  | o :: os => do
    let (b1, r) ← step c b o
    let (b2, rs) ← run c b1 os
    return (b2, r :: rs)

end Verif.CxMultimap
