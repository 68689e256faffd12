import Verif.CxVector.Model
import Verif.CxSet.Model
import Verif.CxMap.Model
import Verif.CxMultimap.Model

/-!
# References into the fixed-capacity containers

`cx_vector`, `cx_set`, `cx_map` and `cx_multimap` hand out references and pointers to the elements of their array
(cx_vector.hpp:39-119, cx_set.hpp:31-49, cx_map.hpp:45-101, cx_multimap.hpp:28-92), and take elements and keys by
`const &`.  Here a reference is the index of the element of the array it refers to, so that an argument may refer to an
element of the container itself, and a reference may be kept while the container changes.  Verif/CxVector, CxSet, CxMap
and CxMultimap pass the values.
-/

namespace Verif.Refs

open Verif.Buf

variable {α κ ν : Type} [DecidableEq α] [DecidableEq κ] [DecidableEq ν]

/-! ## Use of a reference that was kept -/

/-- `x = *p` for a pointer or reference to element `i` of the array (cx_vector.hpp:39-119, cx_set.hpp:31-36,
cx_map.hpp:45-50 and 84-92).  The object is there as long as the container; it may be outside `begin() … end()`. -/
def read (b : Buf α) (i : Nat) : Outcome α := arrGet b.storage i

/-- `v = w` where `v` is a reference to the value of element `i` of a map, as `get` returns it (cx_map.hpp:84-92). -/
def writeValue (b : Buf (κ × ν)) (i : Nat) (w : ν) : Outcome (Buf (κ × ν)) := do
  let e ← arrGet b.storage i
  let st ← arrSet b.storage i (e.1, w)
  return ⟨st, b.size⟩

/-- `auto &v = m.get(k)`: the element to which `v` refers (cx_map.hpp:84-92). -/
def getRef (b : Buf (κ × ν)) (k : κ) : Outcome Nat := do
  match ← find (fun e => e.1 == k) b with
  | some i => return i
  | none => .ub

/-! ## Loops that write through the iterators -/

/-- The loop of `update`, from index `i` with `rem` elements left (cx_set.hpp:31-44, cx_map.hpp:45-58). -/
def updateLoop (f : α → α) (st : List α) (i : Nat) : Nat → Outcome (List α)
  | 0 => .ok st
  | rem + 1 => do
    let x ← arrGet st i
    let st' ← arrSet st i (f x)
    updateLoop f st' (i + 1) rem

/-- `for (auto &x : c) { x = f(x); }` on a container that is not const: `begin()` and `end()` are then pointers to
elements that are not const (cx_vector.hpp:39-53, cx_set.hpp:31-44, cx_map.hpp:45-58). -/
def update (f : α → α) (b : Buf α) : Outcome (Buf α) := do
  let st ← updateLoop f b.storage 0 b.size
  return ⟨st, b.size⟩

/-- `for (auto &[k, v] : m) { v = f(k, v); }` (cx_map.hpp:45-58). -/
def updateValues (f : κ → ν → ν) (b : Buf (κ × ν)) : Outcome (Buf (κ × ν)) := update (fun e => (e.1, f e.1 e.2)) b

/-- `for (auto &[k, v] : m) { k = f(k); }` (cx_map.hpp:45-58): the member `key` (18) is not const. -/
def updateKeys (f : κ → κ) (b : Buf (κ × ν)) : Outcome (Buf (κ × ν)) := update (fun e => (f e.1, e.2)) b

/-! ## Arguments that refer to an element of the container -/

/-- The scan of `begin() … end()` for an element for which `same x y`, where `y` is read through the reference `j`
at every comparison (cx_set.hpp:58-62 and 82-86, cx_map.hpp:86-90, 104-108, 114-119 and 128-133). -/
def scanRef (same : α → α → Bool) (st : List α) (j i : Nat) : Nat → Outcome (Option Nat)
  | 0 => .ok none
  | rem + 1 => do
    let x ← arrGet st i
    let y ← arrGet st j
    if same x y then return some i else scanRef same st j (i + 1) rem

/-- `v.push_back(v[j])` (cx_vector.hpp:130-137): the new element is read through the reference when it is assigned. -/
def pushBackRef (b : Buf α) (j : Nat) : Outcome (Buf α) := do
  let x ← arrGet b.storage j
  let st ← arrSet b.storage b.size x
  return ⟨st, szInc b.size⟩

/-- `s.contains(*(s.begin() + j))` (cx_set.hpp:57-64). -/
def containsRef (b : Buf α) (j : Nat) : Outcome Bool := do
  let r ← scanRef (· == ·) b.storage j 0 b.size
  return r.isSome

/-- `s.insert(*(s.begin() + j))` (cx_set.hpp:66-72). -/
def insertRef (b : Buf α) (j : Nat) : Outcome (Buf α × Bool) := do
  if ← containsRef b j then return (b, false)
  let b' ← pushBackRef b j
  return (b', true)

/-- Erasing the element that is `same` as the one the reference `j` refers to (cx_set.hpp:81-89, cx_map.hpp:127-135):
the last element is assigned to the one that was found, which may be the one the reference refers to. -/
def eraseSame (same : α → α → Bool) (b : Buf α) (j : Nat) : Outcome (Buf α × Nat) := do
  match ← scanRef same b.storage j 0 b.size with
  | some i =>
    let n := szDec b.size
    let x ← arrGet b.storage n
    let st ← arrSet b.storage i x
    return (⟨st, n⟩, 1)
  | none => return (b, 0)

/-- `s.erase(*(s.begin() + j))` (cx_set.hpp:81-89). -/
def eraseRef (b : Buf α) (j : Nat) : Outcome (Buf α × Nat) := eraseSame (· == ·) b j

/-- `m.erase((m.begin() + j)->key)` (cx_map.hpp:127-135). -/
def mapEraseRef (b : Buf (κ × ν)) (j : Nat) : Outcome (Buf (κ × ν) × Nat) := eraseSame (fun e e' => e.1 == e'.1) b j

/-- `m.put((m.begin() + j)->key, (m.begin() + n)->value)` (cx_map.hpp:112-125): the value is read through its reference
when it is assigned. -/
def putRef (b : Buf (κ × ν)) (j n : Nat) : Outcome (Buf (κ × ν) × Bool) := do
  match ← scanRef (fun e e' => e.1 == e'.1) b.storage j 0 b.size with
  | some i => do
    let w ← arrGet b.storage n
    let e ← arrGet b.storage i
    let st ← arrSet b.storage i (e.1, w.2)
    return (⟨st, b.size⟩, false)
  | none => do
    let e ← arrGet b.storage j
    let w ← arrGet b.storage n
    let b' ← append b (e.1, w.2)
    return (b', true)

/-- `m.erase(k, v)` where `k` refers to the key of element `j` of the multimap and `v` to element `n` of the set that `m.get(k)`
refers to (cx_multimap.hpp:73-83).  The set is changed by the first `erase` and the map by the second; `k` is read again after
the first one. -/
def multiEraseRef (b : CxMultimap.MM κ ν) (j n : Nat) : Outcome (CxMultimap.MM κ ν × Nat) := do
  let c ← scanRef (fun e e' => e.1 == e'.1) b.storage j 0 b.size
  if c.isSome then
    match ← scanRef (fun e e' => e.1 == e'.1) b.storage j 0 b.size with
    | some i =>
      let e ← arrGet b.storage i
      let (s', r) ← eraseRef e.2 n
      let st ← arrSet b.storage i (e.1, s')
      if s'.size = 0 then
        let (b2, _) ← mapEraseRef ⟨st, b.size⟩ j
        return (b2, r)
      else return (⟨st, b.size⟩, r)
    | none => .ub
  else return (b, 0)

end Verif.Refs
