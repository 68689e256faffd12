import Verif.Timers.Model

/-!
# Specification: timers in true time

Times are integers that never roll over.
-/

namespace Verif.Timers

/-- `b` is less than half of the range before `a` and at most half of the range after it. -/
def Near (w : Nat) (a b : Int) : Prop := a - b < 2 ^ (w - 1) ∧ b - a ≤ 2 ^ (w - 1)

/-- The timers that have been scheduled and have neither expired nor been cancelled, in the order in which they were scheduled. -/
abbrev Pending := List (Nat × Int)

/-- What is pending after a command. -/
def next (p : Pending) : Cmd Int → Pending
  | .schedule n t => p ++ [(n, t)]
  | .cancel n => p.filter fun e => e.1 ≠ n
  | .expire now => p.filter fun e => now < e.2

/-- `E` are the timers due at `now`, in order of their times, those of the same time in the order in which they were scheduled. -/
def Expired (p : Pending) (now : Int) (E : Pending) : Prop :=
  E.Pairwise (fun a b => a.2 ≤ b.2) ∧ ∀ d, (E.filter fun e => e.2 = d) = if d ≤ now then p.filter fun e => e.2 = d else []

/-- When the client may give a command: a node that is scheduled is not pending, one that is cancelled is; the times that are pending are
less than half of the range before and at most half of the range after the time of the command. -/
def May (w size : Nat) (p : Pending) : Cmd Int → Prop
  | .schedule n t => n < size ∧ (∀ e ∈ p, e.1 ≠ n) ∧ ∀ e ∈ p, Near w t e.2
  | .cancel n => ∃ e ∈ p, e.1 = n
  | .expire now => ∀ e ∈ p, Near w now e.2

/-- What a command returns: `expire` the nodes of the timers that are due, in order. -/
def Answer (p : Pending) (o : List Nat) : Cmd Int → Prop
  | .expire now => ∃ E, Expired p now E ∧ o = E.map Prod.fst
  | _ => o = []

/-- Histories the client may run. -/
def Admissible (w size : Nat) : Pending → List (Cmd Int) → Prop
  | _, [] => True
  | p, c :: cs => May w size p c ∧ Admissible w size (next p c) cs

/-- What a history returns. -/
def Gives : Pending → List (Cmd Int) → List (List Nat) → Prop
  | _, [], outs => outs = []
  | p, c :: cs, outs => ∃ o os, outs = o :: os ∧ Answer p o c ∧ Gives (next p c) cs os

end Verif.Timers
