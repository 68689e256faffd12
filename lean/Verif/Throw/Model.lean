import Verif.CxVector.Model
import Verif.CxSet.Model
import Verif.CxMap.Model
import Verif.CxQueue.Model

/-!
# Element types whose copies and moves throw

Verif/CxVector, CxSet, CxMap and CxQueue take copying and moving an element to succeed.  Here every one of the copies and
moves that the containers make may throw instead.  An assignment that throws leaves some value in its target: what was
there before, if the element type's assignment has no effect when it throws, but any other value is allowed.

In `storage[current_size++] = value` and `k = storage[--current_size]` the operands are evaluated, and so the counter is
changed, before the assignment operator of the element type is called.  Comparisons of elements are taken not to throw; none
of the functions has changed anything when it compares.
-/

namespace Verif.Throw

open Verif.Buf

variable {α κ ν : Type} [DecidableEq α] [DecidableEq κ]

/-- `storage[current_size++] = value` (cx_vector.hpp:132 and 135, cx_set.hpp:70 and 77); `t = some y`: the assignment throws and
leaves `y` in the element.  The second component tells whether it throws. -/
def append (b : Buf α) (x : α) (t : Option α) : Outcome (Buf α × Bool) := do
  let st ← arrSet b.storage b.size (t.getD x)
  return (⟨st, szInc b.size⟩, t.isSome)

/-- `return storage[--current_size]` (cx_vector.hpp:139, cx_set.hpp:104, cx_map.hpp:81): the result is a copy, which throws if
`t`; the element is an lvalue and so is not changed.  No result: it has thrown. -/
def popBack (b : Buf α) (t : Bool) : Outcome (Buf α × Option α) := do
  let n := szDec b.size
  let x ← arrGet b.storage n
  return (⟨b.storage, n⟩, if t then none else some x)

/-- `v = storage[--current_size]; return 1` (cx_set.hpp:81-89, cx_map.hpp:127-135). -/
def eraseIf (p : α → Bool) (b : Buf α) (t : Option α) : Outcome (Buf α × Option Nat) := do
  match ← find p b with
  | some i =>
    let n := szDec b.size
    let x ← arrGet b.storage n
    let st ← arrSet b.storage i (t.getD x)
    return (⟨st, n⟩, if t.isSome then none else some 1)
  | none => return (b, some 0)

/-- `insert` of `cx_set` (cx_set.hpp:66-79). -/
def setInsert (b : Buf α) (k : α) (t : Option α) : Outcome (Buf α × Option Bool) := do
  if ← CxSet.contains b k then return (b, some false)
  let (b', thrown) ← append b k t
  return (b', if thrown then none else some true)

/-- `insert_or_assign` of `cx_map` (cx_map.hpp:112-122): `v = value` may throw, and leave another value, but the key is not
touched; the assignment of the new pair may leave any pair.  (That making the pair `{key, value}` from its two parts throws is
left out.) -/
def mapPut (b : Buf (κ × ν)) (k : κ) (v : ν) (t : Option (κ × ν)) : Outcome (Buf (κ × ν) × Option Bool) := do
  match ← find (fun e => e.1 == k) b with
  | some i => do
    let e ← arrGet b.storage i
    let st ← arrSet b.storage i (e.1, (t.map Prod.snd).getD v)
    return (⟨st, b.size⟩, if t.isSome then none else some false)
  | none => do
    let (b', thrown) ← append b (k, v) t
    return (b', if thrown then none else some true)

/-- `push` (cx_queue.hpp:84-99): index and size are changed before the assignment.  Last component: calls of the panic handler. -/
def queuePush (c : CxQueue.Cfg α) (q : CxQueue.Queue α) (x : α) (t : Option α) : Outcome (CxQueue.Queue α × Bool × Nat) := do
  let p ← CxQueue.checkPush c q.size
  let i := szInc q.pushIndex
  let i := if i = c.N then 0 else i
  let st ← arrSet q.storage i (t.getD x)
  return ({ q with storage := st, pushIndex := i, size := szInc q.size }, t.isSome, p)

/-- `pop` (cx_queue.hpp:101-109): `auto entry = std::move(storage[pop_index++])` changes the index before the move constructor is
called, which, if it throws, leaves `y` in the element; the index is then not compared with `N`, and the size not changed. -/
def queuePop (c : CxQueue.Cfg α) (q : CxQueue.Queue α) (t : Option α) : Outcome (CxQueue.Queue α × Option α × Nat) := do
  let p ← CxQueue.checkPop c q.size
  let x ← arrGet q.storage q.popIndex
  match t with
  | some y => do
    let st ← arrSet q.storage q.popIndex y
    return ({ q with storage := st, popIndex := szInc q.popIndex }, none, p)
  | none => do
    let st ← arrSet q.storage q.popIndex (c.mv x)
    let i := szInc q.popIndex
    let i := if i = c.N then 0 else i
    return ({ q with storage := st, popIndex := i, size := szDec q.size }, some x, p)

/-- Operations on a vector, some of which throw (cx_vector.hpp:39-147). -/
inductive VOp (α : Type) where
  | op (o : CxVector.Op α)
  | pushThrows (x left : α)
  | popThrows

/-- A history of a vector in which the caller handles what is thrown; `none`: thrown (cx_vector.hpp:39-147). -/
def runV (N : Nat) (b : Buf α) : List (VOp α) → Outcome (Buf α × List (Option (CxVector.Out α)))
  | [] => .ok (b, [])
  | .op o :: os => do
    let (b1, r) ← CxVector.step N b o
    let (b2, rs) ← runV N b1 os
    return (b2, some r :: rs)
  | .pushThrows x left :: os => do
    let (b1, _) ← append b x (some left)
    let (b2, rs) ← runV N b1 os
    return (b2, none :: rs)
  | .popThrows :: os => do
    let (b1, _) ← popBack b true
    let (b2, rs) ← runV N b1 os
    return (b2, none :: rs)

end Verif.Throw
