import Verif.Base

/-!
# Model of `stdx::cx_queue`  (/repo/include/stdx/cx_queue.hpp)
-/

namespace Verif.CxQueue

/-- Overflow policies, cx_queue.hpp:15-31. -/
inductive Policy where
  | safe
  | unchecked
  deriving DecidableEq, Repr

/-- What the installed panic handler does: the default one returns (panic.hpp:9-15), a
custom one may never return. -/
inductive Handler where
  | returns
  | noreturn
  deriving DecidableEq, Repr

/-- Compile-time configuration: capacity `N`, overflow policy, panic handler, and what a
slot holds after its content has been moved out (`mv`, cx_queue.hpp:103). -/
structure Cfg (α : Type) where
  N : Nat
  policy : Policy
  handler : Handler
  mv : α → α

/-- Data members, cx_queue.hpp:36-39. -/
structure Queue (α : Type) where
  storage : List α
  pushIndex : Nat
  popIndex : Nat
  size : Nat
  deriving DecidableEq, Repr

/-- A default-constructed queue, cx_queue.hpp:36-39: `N` value-initialised elements `d`,
`push_index{N - 1}` (which wraps for `N = 0`). -/
def init {α : Type} (N : Nat) (d : α) : Queue α :=
  { storage := List.replicate N d, pushIndex := szDec N, popIndex := 0, size := 0 }

/-- Outcome of a policy check: how many times the (returning) panic handler ran (cx_queue.hpp:22-24
and 27-29). -/
def raise (h : Handler) (bad : Bool) : Outcome Nat :=
  if bad then
    match h with
    | .returns => .ok 1
    | .noreturn => .panic
  else .ok 0

/-- `check_push`, cx_queue.hpp:16 and 21-25. -/
def checkPush {α : Type} (c : Cfg α) (size : Nat) : Outcome Nat :=
  match c.policy with
  | .unchecked => .ok 0
  | .safe => raise c.handler (decide (size ≥ c.N))

/-- `check_pop`, cx_queue.hpp:17 and 26-30. -/
def checkPop {α : Type} (c : Cfg α) (size : Nat) : Outcome Nat :=
  match c.policy with
  | .unchecked => .ok 0
  | .safe => raise c.handler (decide (size ≤ 0))

/-- `clear`, cx_queue.hpp:59-63. The storage keeps its contents. -/
def clear {α : Type} (c : Cfg α) (q : Queue α) : Queue α :=
  { q with popIndex := 0, pushIndex := szDec c.N, size := 0 }

/-- `front` (both overloads), cx_queue.hpp:65-73; second component: panic calls. -/
def front {α : Type} (c : Cfg α) (q : Queue α) : Outcome (α × Nat) := do
  let p ← checkPop c q.size
  let x ← arrGet q.storage q.popIndex
  return (x, p)

/-- Assignment through the reference returned by `front() &`, cx_queue.hpp:65-68. -/
def setFront {α : Type} (c : Cfg α) (q : Queue α) (x : α) : Outcome (Queue α × Nat) := do
  let p ← checkPop c q.size
  let st ← arrSet q.storage q.popIndex x
  return ({ q with storage := st }, p)

/-- `back` (both overloads), cx_queue.hpp:74-82. -/
def back {α : Type} (c : Cfg α) (q : Queue α) : Outcome (α × Nat) := do
  let p ← checkPop c q.size
  let x ← arrGet q.storage q.pushIndex
  return (x, p)

/-- Assignment through the reference returned by `back() &`, cx_queue.hpp:74-77. -/
def setBack {α : Type} (c : Cfg α) (q : Queue α) (x : α) : Outcome (Queue α × Nat) := do
  let p ← checkPop c q.size
  let st ← arrSet q.storage q.pushIndex x
  return ({ q with storage := st }, p)

/-- `push` (both overloads), cx_queue.hpp:84-99: `++push_index`, wrap at `N`,
`++current_size`, then the element assignment. -/
def push {α : Type} (c : Cfg α) (q : Queue α) (x : α) : Outcome (Queue α × Nat) := do
  let p ← checkPush c q.size
  let i := szInc q.pushIndex
  let i := if i = c.N then 0 else i
  let st ← arrSet q.storage i x
  return ({ q with storage := st, pushIndex := i, size := szInc q.size }, p)

/-- `pop`, cx_queue.hpp:101-109: moves the element out of `storage[pop_index++]`, wraps the
index at `N`, `--current_size`. -/
def pop {α : Type} (c : Cfg α) (q : Queue α) : Outcome ((Queue α × α) × Nat) := do
  let p ← checkPop c q.size
  let x ← arrGet q.storage q.popIndex
  let st ← arrSet q.storage q.popIndex (c.mv x)
  let i := szInc q.popIndex
  let i := if i = c.N then 0 else i
  return (({ q with storage := st, popIndex := i, size := szDec q.size }, x), p)

/-- The operations of the public interface (cx_queue.hpp:47-109). -/
inductive Op (α : Type) where
  | push (x : α)
  | pop
  | front
  | back
  | setFront (x : α)
  | setBack (x : α)
  | size
  | empty
  | full
  | clear
  deriving Repr

/-- What an operation returns to the caller (cx_queue.hpp:47-109). -/
inductive Out (α : Type) where
  | unit
  | val (x : α)
  | nat (n : Nat)
  | bool (b : Bool)
  deriving DecidableEq, Repr

/-- One public operation: new queue, returned value, number of panic-handler calls. `size`,
`full`, `empty` are cx_queue.hpp:47-57. -/
def step {α : Type} (c : Cfg α) (q : Queue α) : Op α → Outcome (Queue α × Out α × Nat)
  | .push x => do let (q', p) ← push c q x; return (q', .val x, p)
  | .pop => do let ((q', x), p) ← pop c q; return (q', .val x, p)
  | .front => do let (x, p) ← front c q; return (q, .val x, p)
  | .back => do let (x, p) ← back c q; return (q, .val x, p)
  | .setFront x => do let (q', p) ← setFront c q x; return (q', .unit, p)
  | .setBack x => do let (q', p) ← setBack c q x; return (q', .unit, p)
  | .size => .ok (q, .nat q.size, 0)
  | .empty => .ok (q, .bool (q.size == 0), 0)
  | .full => .ok (q, .bool (q.size == c.N), 0)
  | .clear => .ok (clear c q, .unit, 0)

/-- Run a history: final queue, outputs in order, total number of panic-handler calls
(cx_queue.hpp:47-109). -/
def run {α : Type} (c : Cfg α) : Queue α → List (Op α) → Outcome (Queue α × List (Out α) × Nat)
  | q, [] => .ok (q, [], 0)
  | q, o :: os => do
    let (q', r, p) ← step c q o
    let (q'', rs, p') ← run c q' os
    return (q'', r :: rs, p + p')

end Verif.CxQueue
