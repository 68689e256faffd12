import Verif.IList.Model

/-!
# Model of `stdx::intrusive_forward_list`
(/repo/include/stdx/intrusive_forward_list.hpp, /repo/include/stdx/detail/list_common.hpp)

Pointers, nodes, heap and pointer accesses are those of the doubly linked list model.  A node
type may or may not have a `prev` member (`Cfg.hasPrev`, list_common.hpp:41-44); if it has none the
`prev` field of the model is never looked at.
-/

namespace Verif.FList

open Verif.IList (Ptr Node Heap Policy Handler rd setNext setPrev)

/-- Node policy, panic handler, and whether the node type has a `prev` pointer
(intrusive_forward_list.hpp:9-10, list_common.hpp:41-44 and panic.hpp:17-18). -/
structure Cfg where
  policy : Policy
  handler : Handler
  hasPrev : Bool

/-- Data members, intrusive_forward_list.hpp:57-58. -/
structure Lst where
  head : Ptr
  tail : Ptr
  deriving DecidableEq, Repr

/-- `unchecked_push_front`, intrusive_forward_list.hpp:60-67. -/
def uncheckedPushFront (h : Heap) (l : Lst) (n : Nat) : Outcome (Heap × Lst) := do
  let h ← setNext h (some n) l.head
  return (h, ⟨some n, if l.tail = none then some n else l.tail⟩)

/-- `unchecked_push_back`, intrusive_forward_list.hpp:69-79. -/
def uncheckedPushBack (h : Heap) (l : Lst) (n : Nat) : Outcome (Heap × Lst) := do
  let h ← if l.tail ≠ none then setNext h l.tail (some n) else .ok h
  let h ← setNext h (some n) none
  return (h, ⟨if l.head = none then some n else l.head, some n⟩)

/-- `valid_for_push`, list_common.hpp:47-55. -/
def validForPush (c : Cfg) (h : Heap) (n : Nat) : Outcome Bool := do
  let nd ← rd h (some n)
  if c.hasPrev then return nd.prev = none ∧ nd.next = none
  else return nd.next = none

/-- The check in front of every push, list_common.hpp:60-62, 68-70 (unchecked: 102-113). -/
def check (c : Cfg) (h : Heap) (n : Nat) : Outcome Nat :=
  match c.policy with
  | .unchecked => .ok 0
  | .checked => do
    let v ← validForPush c h n
    if v then return 0
    else match c.handler with
      | .returns => return 1
      | .noreturn => .panic

/-- `push_front`, intrusive_forward_list.hpp:96-98, list_common.hpp:58-64. -/
def pushFront (c : Cfg) (h : Heap) (l : Lst) (n : Nat) : Outcome ((Heap × Lst) × Nat) := do
  let p ← check c h n
  let r ← uncheckedPushFront h l n
  return (r, p)

/-- `push_back`, intrusive_forward_list.hpp:99-101, list_common.hpp:66-72. -/
def pushBack (c : Cfg) (h : Heap) (l : Lst) (n : Nat) : Outcome ((Heap × Lst) × Nat) := do
  let p ← check c h n
  let r ← uncheckedPushBack h l n
  return (r, p)

/-- `on_pop`, list_common.hpp:82-88 and 114. -/
def onPop (c : Cfg) (h : Heap) (p : Ptr) : Outcome Heap :=
  match c.policy with
  | .unchecked => .ok h
  | .checked => do
    let h ← if c.hasPrev then setPrev h p none else .ok h
    setNext h p none

/-- `pop_front`, intrusive_forward_list.hpp:103-114. -/
def popFront (c : Cfg) (h : Heap) (l : Lst) : Outcome ((Heap × Lst) × Ptr) := do
  let popped := l.head
  let nd ← rd h l.head
  let l := { l with head := nd.next }
  let l := if l.head = none then { l with tail := none } else l
  let h ← onPop c h popped
  return ((h, l), popped)

/-- The loop of `on_clear`, list_common.hpp:90-98; running out of fuel is non-termination and is
reported as `ub`. -/
def onClearLoop (c : Cfg) : Nat → Heap → Ptr → Outcome Heap
  | _, h, none => .ok h
  | 0, _, some _ => .ub
  | fuel + 1, h, some a => do
    let h ← if c.hasPrev then setPrev h (some a) none else .ok h
    let nd ← rd h (some a)
    let h ← setNext h (some a) none
    onClearLoop c fuel h nd.next

/-- `clear`, intrusive_forward_list.hpp:120-124. -/
def clear (c : Cfg) (h : Heap) (l : Lst) : Outcome (Heap × Lst) := do
  let h ← (match c.policy with
    | .unchecked => .ok h
    | .checked => onClearLoop c (h.length + 1) h l.head)
  return (h, ⟨none, none⟩)

/-- Iteration from `begin()` to `end()`, intrusive_forward_list.hpp:28-31, 82-91; running out of
fuel stands for an iteration longer than `fuel` nodes. -/
def walk (h : Heap) : Nat → Ptr → Outcome (List Nat)
  | _, none => .ok []
  | 0, some _ => .ub
  | fuel + 1, some a => do
    let nd ← rd h (some a)
    let r ← walk h fuel nd.next
    return a :: r

/-- Public operations (intrusive_forward_list.hpp:82-124). -/
inductive Op where
  | pushFront (n : Nat)
  | pushBack (n : Nat)
  | popFront
  | clear
  | empty
  | front
  | back
  | iterate
  deriving DecidableEq, Repr

/-- Returned values (intrusive_forward_list.hpp:93-118). -/
inductive Out where
  | unit
  | node (p : Ptr)
  | bool (b : Bool)
  | nodes (l : List Nat)
  deriving DecidableEq, Repr

/-- `front()`/`back()`, intrusive_forward_list.hpp:93-94: a reference from a null pointer is
undefined. -/
def refTo (h : Heap) (p : Ptr) : Outcome Ptr := do
  let _ ← rd h p
  return p

/-- One operation: new heap, new list object, returned value, number of panic calls
(intrusive_forward_list.hpp:82-124). -/
def step (c : Cfg) (h : Heap) (l : Lst) : Op → Outcome ((Heap × Lst) × Out × Nat)
  | .pushFront n => do let (r, p) ← pushFront c h l n; return (r, .unit, p)
  | .pushBack n => do let (r, p) ← pushBack c h l n; return (r, .unit, p)
  | .popFront => do let (r, p) ← popFront c h l; return (r, .node p, 0)
  | .clear => do let r ← clear c h l; return (r, .unit, 0)
  | .empty => .ok ((h, l), .bool (l.head = none), 0)
  | .front => do let p ← refTo h l.head; return ((h, l), .node p, 0)
  | .back => do let p ← refTo h l.tail; return ((h, l), .node p, 0)
  | .iterate => do let ns ← walk h h.length l.head; return ((h, l), .nodes ns, 0)

/-- A program with list objects indexed by `ι` over one heap of nodes
(intrusive_forward_list.hpp:57-58). -/
structure World (ι : Type) where
  heap : Heap
  lists : ι → Lst

/-- An operation on list object `i` (intrusive_forward_list.hpp:82-124). -/
def stepW {ι : Type} [DecidableEq ι] (c : Cfg) (w : World ι) (i : ι) (o : Op) :
    Outcome (World ι × Out × Nat) := do
  let ((h, l), r, p) ← step c w.heap (w.lists i) o
  return (⟨h, fun j => if j = i then l else w.lists j⟩, r, p)

/-- A history of operations on the list objects; the panic calls add up
(intrusive_forward_list.hpp:82-124). -/
def runW {ι : Type} [DecidableEq ι] (c : Cfg) (w : World ι) :
    List (ι × Op) → Outcome (World ι × List Out × Nat)
  | [] => .ok (w, [], 0)
  | (i, o) :: os => do
    let (w1, r, p) ← stepW c w i o
    let (w2, rs, ps) ← runW c w1 os
    return (w2, r :: rs, p + ps)

end Verif.FList
