import Verif.Judge.Model
import Verif.CxQueue.Model
import Verif.IList.Model
import Verif.FList.Model

/-!
# Panic handlers that throw, and panic handlers that repair

The models of the queue and of the lists distinguish handlers that return and handlers that never do.  Here the handler is any function: each
time it is called it may return or throw.  It has a world `W` of its own; handlers that throw do not touch the objects (`panics`), handlers
that repair call operations on them (`qRepairs`, `lRepairs`, `fRepairs`).  What a caller that catches the exception finds is part of the
outcome.
-/

namespace Verif.Caught

open Verif.Unwind

variable {E W B α ι : Type}

/-- What `STDX_PANIC(...)` does (panic.hpp:18-37): the handler is a global of the program, so that it may change anything in it. -/
abbrev Raise (E S : Type) := S → Res E S Unit

/-- `panic_handler<>.panic<"...">()`, panic.hpp:18-27: from the world before the world afterwards, and whether it returned. -/
abbrev Handler (E W : Type) := W → W × Except E Unit

/-- `STDX_PANIC(...)`, panic.hpp:33-37, beside the objects of the program. -/
def panics (H : Handler E W) (s : B × W) : Res E (B × W) Unit :=
  match H s.2 with
  | (w, .ok ()) => .ok (s.1, w) ()
  | (w, .error e) => .threw (s.1, w) e

/-! ## cx_queue with the safe policy -/

section queue

open CxQueue (Queue)

/-- The messages (cx_queue.hpp:23, 28): template arguments of the handler, which it can tell apart. -/
inductive Msg
  | overflow
  | underflow
  deriving DecidableEq

/-- `check_push`, cx_queue.hpp:21-25. -/
def checkPush (P : Msg → Raise E (Queue α × W)) (N : Nat) (s : Queue α × W) : Res E (Queue α × W) Unit :=
  if s.1.size ≥ N then P .overflow s else .ok s ()

/-- `check_pop`, cx_queue.hpp:26-30. -/
def checkPop (P : Msg → Raise E (Queue α × W)) (s : Queue α × W) : Res E (Queue α × W) Unit := if s.1.size ≤ 0 then P .underflow s else .ok s ()

/-- `front`, cx_queue.hpp:65-73. -/
def qFront (P : Msg → Raise E (Queue α × W)) (s : Queue α × W) : Res E (Queue α × W) α :=
  (checkPop P s).andThen fun s _ => need (arrGet s.1.storage s.1.popIndex) fun x => .ok s x

/-- Assignment through the reference that `front() &` returns, cx_queue.hpp:65-68. -/
def qSetFront (P : Msg → Raise E (Queue α × W)) (x : α) (s : Queue α × W) : Res E (Queue α × W) Unit :=
  (checkPop P s).andThen fun s _ => need (arrSet s.1.storage s.1.popIndex x) fun st => .ok ({ s.1 with storage := st }, s.2) ()

/-- `back`, cx_queue.hpp:74-82. -/
def qBack (P : Msg → Raise E (Queue α × W)) (s : Queue α × W) : Res E (Queue α × W) α :=
  (checkPop P s).andThen fun s _ => need (arrGet s.1.storage s.1.pushIndex) fun x => .ok s x

/-- Assignment through the reference that `back() &` returns, cx_queue.hpp:74-77. -/
def qSetBack (P : Msg → Raise E (Queue α × W)) (x : α) (s : Queue α × W) : Res E (Queue α × W) Unit :=
  (checkPop P s).andThen fun s _ => need (arrSet s.1.storage s.1.pushIndex x) fun st => .ok ({ s.1 with storage := st }, s.2) ()

/-- `push`, cx_queue.hpp:84-99. -/
def qPush (P : Msg → Raise E (Queue α × W)) (N : Nat) (x : α) (s : Queue α × W) : Res E (Queue α × W) Unit :=
  (checkPush P N s).andThen fun s _ =>
    let i := szInc s.1.pushIndex
    let i := if i = N then 0 else i
    need (arrSet s.1.storage i x) fun st => .ok ({ s.1 with storage := st, pushIndex := i, size := szInc s.1.size }, s.2) ()

/-- `pop`, cx_queue.hpp:101-109; `mv` is what a slot holds after its content has been moved out. -/
def qPop (P : Msg → Raise E (Queue α × W)) (N : Nat) (mv : α → α) (s : Queue α × W) : Res E (Queue α × W) α :=
  (checkPop P s).andThen fun s _ =>
    need (arrGet s.1.storage s.1.popIndex) fun x => need (arrSet s.1.storage s.1.popIndex (mv x)) fun st =>
      let i := szInc s.1.popIndex
      let i := if i = N then 0 else i
      .ok ({ s.1 with storage := st, popIndex := i, size := szDec s.1.size }, s.2) x

/-- One operation (cx_queue.hpp:47-109). -/
def qStep (P : Msg → Raise E (Queue α × W)) (N : Nat) (mv : α → α) (o : CxQueue.Op α) (s : Queue α × W) : Res E (Queue α × W) (CxQueue.Out α) :=
  match o with
  | .push x => (qPush P N x s).andThen fun s _ => .ok s (.val x)
  | .pop => (qPop P N mv s).andThen fun s x => .ok s (.val x)
  | .front => (qFront P s).andThen fun s x => .ok s (.val x)
  | .back => (qBack P s).andThen fun s x => .ok s (.val x)
  | .setFront x => (qSetFront P x s).andThen fun s _ => .ok s .unit
  | .setBack x => (qSetBack P x s).andThen fun s _ => .ok s .unit
  | .size => .ok s (.nat s.1.size)
  | .empty => .ok s (.bool (s.1.size == 0))
  | .full => .ok s (.bool (s.1.size == N))
  | .clear => .ok ({ s.1 with popIndex := 0, pushIndex := szDec N, size := 0 }, s.2) .unit

/-- A handler (panic.hpp:18-27) that repairs: it makes calls on the queue, which it chooses by the message and by its own world, and
returns.  That a call of its own panics again, so that it is entered while it runs, is not modelled (`ub`). -/
def qRepairs (N : Nat) (mv : α → α) (prog : Msg → W → List (CxQueue.Op α) × W) (m : Msg) : Raise E (Queue α × W) := fun s =>
  need (CxQueue.run ⟨N, .safe, .noreturn, mv⟩ s.1 (prog m s.2).1) fun r => .ok (r.1, (prog m s.2).2) ()

end queue

/-! ## intrusive_list -/

section list

variable [DecidableEq ι]

/-- The check in front of every push (list_common.hpp:60-62, 68-70, 76-78; absent in the unchecked policy, 102-113). -/
def lCheck (p : IList.Policy) (P : Raise E (IList.World ι × W)) (n : Nat) (s : IList.World ι × W) : Res E (IList.World ι × W) Unit :=
  match p with
  | .unchecked => .ok s ()
  | .checked => need (IList.validForPush s.1.heap n) fun v => if v then .ok s () else P s

/-- A change of the nodes and of one list object (intrusive_list.hpp:57-102). -/
def lSet (i : ι) (s : IList.World ι × W) (r : IList.Heap × IList.Lst) : IList.World ι × W :=
  (⟨r.1, fun j => if j = i then r.2 else s.1.lists j⟩, s.2)

/-- `push_front`, intrusive_list.hpp:119-121 and list_common.hpp:59-64. -/
def lPushFront (p : IList.Policy) (P : Raise E (IList.World ι × W)) (i : ι) (n : Nat) (s : IList.World ι × W) : Res E (IList.World ι × W) Unit :=
  (lCheck p P n s).andThen fun s _ => need (IList.uncheckedPushFront s.1.heap (s.1.lists i) n) fun r => .ok (lSet i s r) ()

/-- `push_back`, intrusive_list.hpp:122-124 and list_common.hpp:67-72. -/
def lPushBack (p : IList.Policy) (P : Raise E (IList.World ι × W)) (i : ι) (n : Nat) (s : IList.World ι × W) : Res E (IList.World ι × W) Unit :=
  (lCheck p P n s).andThen fun s _ => need (IList.uncheckedPushBack s.1.heap (s.1.lists i) n) fun r => .ok (lSet i s r) ()

/-- `insert`, intrusive_list.hpp:125-131 and list_common.hpp:75-80. -/
def lInsert (p : IList.Policy) (P : Raise E (IList.World ι × W)) (i : ι) (it : IList.Ptr) (n : Nat) (s : IList.World ι × W) : Res E (IList.World ι × W) Unit :=
  if (s.1.lists i).head = none then lPushBack p P i n s
  else (lCheck p P n s).andThen fun s _ => need (IList.uncheckedInsert s.1.heap (s.1.lists i) it n) fun r => .ok (lSet i s r) ()

/-- One operation (intrusive_list.hpp:105-190); those that add no node call no handler and are those of `IList.step`. -/
def lStep (p : IList.Policy) (P : Raise E (IList.World ι × W)) (o : ι × IList.Op) (s : IList.World ι × W) : Res E (IList.World ι × W) IList.Out :=
  match o.2 with
  | .pushFront n => (lPushFront p P o.1 n s).andThen fun s _ => .ok s .unit
  | .pushBack n => (lPushBack p P o.1 n s).andThen fun s _ => .ok s .unit
  | .insert it n => (lInsert p P o.1 it n s).andThen fun s _ => .ok s .unit
  | o' => need (IList.step ⟨p, .noreturn⟩ s.1.heap (s.1.lists o.1) o') fun r => .ok (lSet o.1 s r.1) r.2.1

/-- A handler (panic.hpp:18-27) that repairs: it makes calls on the lists, which it chooses by its own world, and returns; see `qRepairs`. -/
def lRepairs (prog : W → List (ι × IList.Op) × W) : Raise E (IList.World ι × W) := fun s =>
  need (IList.runW ⟨.checked, .noreturn⟩ s.1 (prog s.2).1) fun r => .ok (r.1, (prog s.2).2) ()

end list

/-! ## intrusive_forward_list -/

section flist

variable [DecidableEq ι]

/-- The check in front of every push (list_common.hpp:60-62, 68-70, 102-113); the handler of `c` is not used. -/
def fCheck (c : FList.Cfg) (P : Raise E (FList.World ι × W)) (n : Nat) (s : FList.World ι × W) : Res E (FList.World ι × W) Unit :=
  match c.policy with
  | .unchecked => .ok s ()
  | .checked => need (FList.validForPush c s.1.heap n) fun v => if v then .ok s () else P s

/-- A change of the nodes and of one list object (intrusive_forward_list.hpp:57-79). -/
def fSet (i : ι) (s : FList.World ι × W) (r : IList.Heap × FList.Lst) : FList.World ι × W :=
  (⟨r.1, fun j => if j = i then r.2 else s.1.lists j⟩, s.2)

/-- `push_front`, intrusive_forward_list.hpp:96-98, list_common.hpp:58-64. -/
def fPushFront (c : FList.Cfg) (P : Raise E (FList.World ι × W)) (i : ι) (n : Nat) (s : FList.World ι × W) : Res E (FList.World ι × W) Unit :=
  (fCheck c P n s).andThen fun s _ => need (FList.uncheckedPushFront s.1.heap (s.1.lists i) n) fun r => .ok (fSet i s r) ()

/-- `push_back`, intrusive_forward_list.hpp:99-101, list_common.hpp:66-72. -/
def fPushBack (c : FList.Cfg) (P : Raise E (FList.World ι × W)) (i : ι) (n : Nat) (s : FList.World ι × W) : Res E (FList.World ι × W) Unit :=
  (fCheck c P n s).andThen fun s _ => need (FList.uncheckedPushBack s.1.heap (s.1.lists i) n) fun r => .ok (fSet i s r) ()

/-- One operation (intrusive_forward_list.hpp:82-124); those that add no node call no handler and are those of `FList.step`. -/
def fStep (c : FList.Cfg) (P : Raise E (FList.World ι × W)) (o : ι × FList.Op) (s : FList.World ι × W) : Res E (FList.World ι × W) FList.Out :=
  match o.2 with
  | .pushFront n => (fPushFront c P o.1 n s).andThen fun s _ => .ok s .unit
  | .pushBack n => (fPushBack c P o.1 n s).andThen fun s _ => .ok s .unit
  | o' => need (FList.step c s.1.heap (s.1.lists o.1) o') fun r => .ok (fSet o.1 s r.1) r.2.1

/-- A handler (panic.hpp:18-27) that repairs, as `lRepairs`. -/
def fRepairs (hasPrev : Bool) (prog : W → List (ι × FList.Op) × W) : Raise E (FList.World ι × W) := fun s =>
  need (FList.runW ⟨.checked, .noreturn, hasPrev⟩ s.1 (prog s.2).1) fun r => .ok (r.1, (prog s.2).2) ()

end flist

end Verif.Caught
