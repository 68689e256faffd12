import Verif.Judge.Model
import Verif.CxQueue.Model

/-!
# Model of `stdx::cx_queue` with an overflow policy of the program's own  (/repo/include/stdx/cx_queue.hpp)

The policy is any pair of functions as docs/cx_queue.adoc asks for: they take sizes by value, have a world `W` of their own, and return, throw
or never return.  Simplified: they do not touch the queue itself.
-/

namespace Verif.Policy

open Verif.Unwind

open CxQueue (Queue)

variable {E W α : Type}

/-- A call of a function of the policy, with its arguments (cx_queue.hpp:66, 71, 75, 80, 85, 93, 102). -/
inductive Check where
  | push (size capacity : Nat)
  | pop (size : Nat)
  deriving DecidableEq, Repr

/-- How such a call ends (cx_queue.hpp:16-17, 21-30: with a panic handler that returns, throws or does neither). -/
inductive Answer (E : Type) where
  | returns
  | throws (e : E)
  | stops
  deriving DecidableEq, Repr

/-- `OverflowPolicy`, cx_queue.hpp:33-34: `check_push` and `check_pop`. -/
abbrev Policy (E W : Type) := Check → W → W × Answer E

/-- `OverflowPolicy::check_push(current_size, N)` and `OverflowPolicy::check_pop(current_size)`, cx_queue.hpp:66, 71, 75, 80, 85, 93, 102. -/
def ask (P : Policy E W) (c : Check) (s : Queue α × W) : Res E (Queue α × W) Unit :=
  match P c s.2 with
  | (w, .returns) => .ok (s.1, w) ()
  | (w, .throws e) => .threw (s.1, w) e
  | (_, .stops) => .terminated

/-- `front`, cx_queue.hpp:65-73. -/
def front (P : Policy E W) (s : Queue α × W) : Res E (Queue α × W) α :=
  (ask P (.pop s.1.size) s).andThen fun s _ => need (arrGet s.1.storage s.1.popIndex) fun x => .ok s x

/-- Assignment through the reference that `front() &` returns, cx_queue.hpp:65-68. -/
def setFront (P : Policy E W) (x : α) (s : Queue α × W) : Res E (Queue α × W) Unit :=
  (ask P (.pop s.1.size) s).andThen fun s _ => need (arrSet s.1.storage s.1.popIndex x) fun st => .ok ({ s.1 with storage := st }, s.2) ()

/-- `back`, cx_queue.hpp:74-82. -/
def back (P : Policy E W) (s : Queue α × W) : Res E (Queue α × W) α :=
  (ask P (.pop s.1.size) s).andThen fun s _ => need (arrGet s.1.storage s.1.pushIndex) fun x => .ok s x

/-- Assignment through the reference that `back() &` returns, cx_queue.hpp:74-77. -/
def setBack (P : Policy E W) (x : α) (s : Queue α × W) : Res E (Queue α × W) Unit :=
  (ask P (.pop s.1.size) s).andThen fun s _ => need (arrSet s.1.storage s.1.pushIndex x) fun st => .ok ({ s.1 with storage := st }, s.2) ()

/-- `push`, cx_queue.hpp:84-99. -/
def push (P : Policy E W) (N : Nat) (x : α) (s : Queue α × W) : Res E (Queue α × W) Unit :=
  (ask P (.push s.1.size N) s).andThen fun s _ =>
    let i := szInc s.1.pushIndex
    let i := if i = N then 0 else i
    need (arrSet s.1.storage i x) fun st => .ok ({ s.1 with storage := st, pushIndex := i, size := szInc s.1.size }, s.2) ()

/-- `pop`, cx_queue.hpp:101-109; `mv` is what a slot holds after its content has been moved out. -/
def pop (P : Policy E W) (N : Nat) (mv : α → α) (s : Queue α × W) : Res E (Queue α × W) α :=
  (ask P (.pop s.1.size) s).andThen fun s _ =>
    need (arrGet s.1.storage s.1.popIndex) fun x => need (arrSet s.1.storage s.1.popIndex (mv x)) fun st =>
      let i := szInc s.1.popIndex
      let i := if i = N then 0 else i
      .ok ({ s.1 with storage := st, popIndex := i, size := szDec s.1.size }, s.2) x

/-- One operation (cx_queue.hpp:47-109). -/
def step (P : Policy E W) (N : Nat) (mv : α → α) (o : CxQueue.Op α) (s : Queue α × W) : Res E (Queue α × W) (CxQueue.Out α) :=
  match o with
  | .push x => (push P N x s).andThen fun s _ => .ok s (.val x)
  | .pop => (pop P N mv s).andThen fun s x => .ok s (.val x)
  | .front => (front P s).andThen fun s x => .ok s (.val x)
  | .back => (back P s).andThen fun s x => .ok s (.val x)
  | .setFront x => (setFront P x s).andThen fun s _ => .ok s .unit
  | .setBack x => (setBack P x s).andThen fun s _ => .ok s .unit
  | .size => .ok s (.nat s.1.size)
  | .empty => .ok s (.bool (s.1.size == 0))
  | .full => .ok s (.bool (s.1.size == N))
  | .clear => .ok ({ s.1 with popIndex := 0, pushIndex := szDec N, size := 0 }, s.2) .unit

/-- `safe_overflow_policy`, cx_queue.hpp:20-31, with the panic handler `H`. -/
def safe (H : W → W × Answer E) : Policy E W
  | .push size capacity, w => if size ≥ capacity then H w else (w, .returns)
  | .pop size, w => if size ≤ 0 then H w else (w, .returns)

/-- `unsafe_overflow_policy`, cx_queue.hpp:15-18. -/
def unsafely : Policy E W := fun _ w => (w, .returns)

end Verif.Policy
