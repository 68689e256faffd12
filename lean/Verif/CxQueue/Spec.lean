import Verif.CxQueue.Model

/-!
# Specification of a bounded FIFO queue

The abstract state is the list of elements, oldest first. `specStep` answers `none` exactly
when the caller violates the documented precondition (push on full, pop/front/back on
empty). Only the operation and output alphabets are shared with the model.
-/

namespace Verif.CxQueue

/-- One operation on the abstract bounded queue of capacity `N`. -/
def specStep {α : Type} (N : Nat) (l : List α) : Op α → Option (List α × Out α)
  | .push x => if l.length < N then some (l ++ [x], .val x) else none
  | .pop =>
    match l with
    | [] => none
    | x :: xs => some (xs, .val x)
  | .front =>
    match l with
    | [] => none
    | x :: _ => some (l, .val x)
  | .back => (l.getLast?).map fun x => (l, .val x)
  | .setFront x =>
    match l with
    | [] => none
    | _ :: xs => some (x :: xs, .unit)
  | .setBack x => if l = [] then none else some (l.dropLast ++ [x], .unit)
  | .size => some (l, .nat l.length)
  | .empty => some (l, .bool (decide (l = [])))
  | .full => some (l, .bool (decide (l.length = N)))
  | .clear => some ([], .unit)

/-- A history on the abstract queue; `none` as soon as a precondition is violated. -/
def specRun {α : Type} (N : Nat) : List α → List (Op α) → Option (List α × List (Out α))
  | l, [] => some (l, [])
  | l, o :: os =>
    match specStep N l o with
    | none => none
    | some (l', r) =>
      match specRun N l' os with
      | none => none
      | some (l'', rs) => some (l'', r :: rs)

end Verif.CxQueue
