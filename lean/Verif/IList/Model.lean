import Verif.Base

/-!
# Model of `stdx::intrusive_list`
(/repo/include/stdx/intrusive_list.hpp, /repo/include/stdx/detail/list_common.hpp)

Nodes live in a heap; an address is an index into it.  Dereferencing the null pointer or an
address that is not a node is undefined.  Only the link members are modelled; the payload of a
node is never touched by the list.
-/

namespace Verif.IList

/-- A pointer to a node; `none` is `nullptr` (intrusive_list.hpp:50). -/
abbrev Ptr := Option Nat

/-- The link members of a node (list_common.hpp:14-37). -/
structure Node where
  prev : Ptr
  next : Ptr
  deriving DecidableEq, Repr

/-- All nodes that exist.  A node is the object a `NodeType *` (intrusive_list.hpp:50) points to. -/
abbrev Heap := List Node

/-- Data members `head`, `tail`, intrusive_list.hpp:57-58. -/
structure Lst where
  head : Ptr
  tail : Ptr
  deriving DecidableEq, Repr

/-- Node policies, list_common.hpp:46-117. -/
inductive Policy where
  | checked
  | unchecked
  deriving DecidableEq, Repr

/-- What the installed panic handler does: the default one returns (panic.hpp:9-15). -/
inductive Handler where
  | returns
  | noreturn
  deriving DecidableEq, Repr

/-- Node policy and panic handler of a program (intrusive_list.hpp:9-10 and panic.hpp:17-18). -/
structure Cfg where
  policy : Policy
  handler : Handler

/-- Read `*p` (e.g. intrusive_list.hpp:29). -/
def rd (h : Heap) (p : Ptr) : Outcome Node :=
  match p with
  | some a => arrGet h a
  | none => .ub

/-- Write `p->next = v` (e.g. intrusive_list.hpp:65). -/
def setNext (h : Heap) (p v : Ptr) : Outcome Heap :=
  match p with
  | some a => do let n ← arrGet h a; arrSet h a { n with next := v }
  | none => .ub

/-- Write `p->prev = v` (e.g. intrusive_list.hpp:67). -/
def setPrev (h : Heap) (p v : Ptr) : Outcome Heap :=
  match p with
  | some a => do let n ← arrGet h a; arrSet h a { n with prev := v }
  | none => .ub

/-- `unchecked_push_front`, intrusive_list.hpp:60-71. -/
def uncheckedPushFront (h : Heap) (l : Lst) (n : Nat) : Outcome (Heap × Lst) := do
  let h ← if l.head ≠ none then setPrev h l.head (some n) else .ok h
  let h ← setNext h (some n) l.head
  let h ← setPrev h (some n) none
  return (h, ⟨some n, if l.tail = none then some n else l.tail⟩)

/-- `unchecked_push_back`, intrusive_list.hpp:73-84. -/
def uncheckedPushBack (h : Heap) (l : Lst) (n : Nat) : Outcome (Heap × Lst) := do
  let h ← if l.tail ≠ none then setNext h l.tail (some n) else .ok h
  let h ← setPrev h (some n) l.tail
  let h ← setNext h (some n) none
  return (h, ⟨if l.head = none then some n else l.head, some n⟩)

/-- `unchecked_insert`, intrusive_list.hpp:86-102.  The iterator is the node pointer it holds
(intrusive_list.hpp:39); `end()` is the null pointer (112). -/
def uncheckedInsert (h : Heap) (l : Lst) (it : Ptr) (n : Nat) : Outcome (Heap × Lst) := do
  let (h, l) ←
    (if it ≠ none then do
      let h ← setNext h (some n) it
      let p ← rd h it
      let h ← setPrev h (some n) p.prev
      let h ← setPrev h it (some n)
      return (h, l)
    else do
      let h ← setPrev h (some n) l.tail
      return (h, { l with tail := some n }))
  let nd ← rd h (some n)
  if nd.prev ≠ none then do
    let h ← setNext h nd.prev (some n)
    return (h, l)
  else return (h, { l with head := some n })

/-- `valid_for_push`, list_common.hpp:47-55 (node with `prev`). -/
def validForPush (h : Heap) (n : Nat) : Outcome Bool := do
  let nd ← rd h (some n)
  return nd.prev = none ∧ nd.next = none

/-- The check in front of every push (list_common.hpp:60-62, 68-70, 76-78; absent in the
unchecked policy 102-113): number of calls to a returning panic handler. -/
def check (c : Cfg) (h : Heap) (n : Nat) : Outcome Nat :=
  match c.policy with
  | .unchecked => .ok 0
  | .checked => do
    let v ← validForPush h n
    if v then return 0
    else match c.handler with
      | .returns => return 1
      | .noreturn => .panic

/-- `push_front`, intrusive_list.hpp:119-121 and list_common.hpp:59-64. -/
def pushFront (c : Cfg) (h : Heap) (l : Lst) (n : Nat) : Outcome ((Heap × Lst) × Nat) := do
  let p ← check c h n
  let r ← uncheckedPushFront h l n
  return (r, p)

/-- `push_back`, intrusive_list.hpp:122-124 and list_common.hpp:67-72. -/
def pushBack (c : Cfg) (h : Heap) (l : Lst) (n : Nat) : Outcome ((Heap × Lst) × Nat) := do
  let p ← check c h n
  let r ← uncheckedPushBack h l n
  return (r, p)

/-- `insert`, intrusive_list.hpp:125-131 and list_common.hpp:75-80. -/
def insert (c : Cfg) (h : Heap) (l : Lst) (it : Ptr) (n : Nat) : Outcome ((Heap × Lst) × Nat) :=
  if l.head = none then pushBack c h l n
  else do
    let p ← check c h n
    let r ← uncheckedInsert h l it n
    return (r, p)

/-- `on_pop`, list_common.hpp:82-88 and 114. -/
def onPop (c : Cfg) (h : Heap) (p : Ptr) : Outcome Heap :=
  match c.policy with
  | .unchecked => .ok h
  | .checked => do
    let h ← setPrev h p none
    setNext h p none

/-- `pop_front`, intrusive_list.hpp:133-146. -/
def popFront (c : Cfg) (h : Heap) (l : Lst) : Outcome ((Heap × Lst) × Ptr) := do
  let popped := l.head
  let nd ← rd h l.head
  let l := { l with head := nd.next }
  let (h, l) ←
    (if l.head = none then .ok (h, { l with tail := none })
     else do let h ← setPrev h l.head none; return (h, l))
  let h ← onPop c h popped
  return ((h, l), popped)

/-- `pop_back`, intrusive_list.hpp:148-161. -/
def popBack (c : Cfg) (h : Heap) (l : Lst) : Outcome ((Heap × Lst) × Ptr) := do
  let popped := l.tail
  let nd ← rd h l.tail
  let l := { l with tail := nd.prev }
  let (h, l) ←
    (if l.tail = none then .ok (h, { l with head := none })
     else do let h ← setNext h l.tail none; return (h, l))
  let h ← onPop c h popped
  return ((h, l), popped)

/-- The loop of `on_clear`, list_common.hpp:90-98.  Each turn clears one `next` pointer, so it
visits at most `heap.length + 1` nodes even in a corrupted list; running out of fuel would be
non-termination and is reported as `ub`, never as a result. -/
def onClearLoop : Nat → Heap → Ptr → Outcome Heap
  | _, h, none => .ok h
  | 0, _, some _ => .ub
  | fuel + 1, h, some a => do
    let h ← setPrev h (some a) none
    let nd ← rd h (some a)
    let h ← setNext h (some a) none
    onClearLoop fuel h nd.next

/-- `clear`, intrusive_list.hpp:167-171; `on_clear` is empty in the unchecked policy
(list_common.hpp:115). -/
def clear (c : Cfg) (h : Heap) (l : Lst) : Outcome (Heap × Lst) := do
  let h ← (match c.policy with
    | .unchecked => .ok h
    | .checked => onClearLoop (h.length + 1) h l.head)
  return (h, ⟨none, none⟩)

/-- `remove`, intrusive_list.hpp:173-190. -/
def remove (c : Cfg) (h : Heap) (l : Lst) (n : Nat) : Outcome (Heap × Lst) := do
  let nd ← rd h (some n)
  let nextNode := nd.next
  let prevNode := nd.prev
  let (h, l) ←
    (if prevNode = none then .ok (h, { l with head := nextNode })
     else do let h ← setNext h prevNode nextNode; return (h, l))
  let (h, l) ←
    (if nextNode = none then .ok (h, { l with tail := prevNode })
     else do let h ← setPrev h nextNode prevNode; return (h, l))
  let h ← onPop c h (some n)
  return (h, l)

/-- Iteration `for (it = begin(); it != end(); ++it)`, intrusive_list.hpp:28-31, 105-114.
Running out of fuel stands for an iteration longer than `fuel` nodes. -/
def walk (h : Heap) : Nat → Ptr → Outcome (List Nat)
  | _, none => .ok []
  | 0, some _ => .ub
  | fuel + 1, some a => do
    let nd ← rd h (some a)
    let r ← walk h fuel nd.next
    return a :: r

/-- A client following `prev` from `&back()` until null (intrusive_list.hpp:117 and
list_common.hpp:33-37). -/
def walkBack (h : Heap) : Nat → Ptr → Outcome (List Nat)
  | _, none => .ok []
  | 0, some _ => .ub
  | fuel + 1, some a => do
    let nd ← rd h (some a)
    let r ← walkBack h fuel nd.prev
    return a :: r

/-- Public operations; `front`/`back` (116-117) return the address of the node referred to
(intrusive_list.hpp:105-190). -/
inductive Op where
  | pushFront (n : Nat)
  | pushBack (n : Nat)
  | insert (it : Ptr) (n : Nat)
  | popFront
  | popBack
  | clear
  | remove (n : Nat)
  | empty
  | front
  | back
  | iterate
  | iterateBack
  deriving DecidableEq, Repr

/-- Returned values (intrusive_list.hpp:116-165). -/
inductive Out where
  | unit
  | node (p : Ptr)
  | bool (b : Bool)
  | nodes (l : List Nat)
  deriving DecidableEq, Repr

/-- `front()`/`back()` return a reference: undefined for a null pointer
(intrusive_list.hpp:116-117). -/
def refTo (h : Heap) (p : Ptr) : Outcome Ptr := do
  let _ ← rd h p
  return p

/-- One operation: new heap, new list object, returned value, number of panic calls
(intrusive_list.hpp:105-190). -/
def step (c : Cfg) (h : Heap) (l : Lst) : Op → Outcome ((Heap × Lst) × Out × Nat)
  | .pushFront n => do let (r, p) ← pushFront c h l n; return (r, .unit, p)
  | .pushBack n => do let (r, p) ← pushBack c h l n; return (r, .unit, p)
  | .insert it n => do let (r, p) ← insert c h l it n; return (r, .unit, p)
  | .popFront => do let (r, p) ← popFront c h l; return (r, .node p, 0)
  | .popBack => do let (r, p) ← popBack c h l; return (r, .node p, 0)
  | .clear => do let r ← clear c h l; return (r, .unit, 0)
  | .remove n => do let r ← remove c h l n; return (r, .unit, 0)
  | .empty => .ok ((h, l), .bool (l.head = none), 0)
  | .front => do let p ← refTo h l.head; return ((h, l), .node p, 0)
  | .back => do let p ← refTo h l.tail; return ((h, l), .node p, 0)
  | .iterate => do let ns ← walk h h.length l.head; return ((h, l), .nodes ns, 0)
  | .iterateBack => do let ns ← walkBack h h.length l.tail; return ((h, l), .nodes ns, 0)

/-- A program with any number of list objects over one heap of nodes, indexed by `ι`
(intrusive_list.hpp:57-58). -/
structure World (ι : Type) where
  heap : Heap
  lists : ι → Lst

/-- An operation on list object `i` (intrusive_list.hpp:105-190). -/
def stepW {ι : Type} [DecidableEq ι] (c : Cfg) (w : World ι) (i : ι) (o : Op) :
    Outcome (World ι × Out × Nat) := do
  let ((h, l), r, p) ← step c w.heap (w.lists i) o
  return (⟨h, fun j => if j = i then l else w.lists j⟩, r, p)

/-- A history of operations on the list objects, in any interleaving; the panic calls add
up (intrusive_list.hpp:105-190). -/
def runW {ι : Type} [DecidableEq ι] (c : Cfg) (w : World ι) :
    List (ι × Op) → Outcome (World ι × List Out × Nat)
  | [] => .ok (w, [], 0)
  | (i, o) :: os => do
    let (w1, r, p) ← stepW c w i o
    let (w2, rs, ps) ← runW c w1 os
    return (w2, r :: rs, p + ps)

end Verif.IList
