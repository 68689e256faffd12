import Verif.Policy.Model
import Verif.CxQueue.Spec

/-!
# Specification: a bounded queue whose policy is asked first
-/

namespace Verif.Policy

open Verif.Unwind Verif.CxQueue

variable {E W α : Type}

/-- What the policy is asked before an operation on a queue with these elements, if it is asked. -/
def asked (N : Nat) (l : List α) : Op α → Option Check
  | .push _ => some (.push l.length N)
  | .size | .empty | .full | .clear => none
  | _ => some (.pop l.length)

/-- What the documentation calls safe. -/
def Check.Safe : Check → Prop
  | .push size capacity => size < capacity
  | .pop size => 0 < size

/-- An operation of the abstract queue, which is undefined where it says nothing. -/
def allowed (N : Nat) (o : Op α) (s : List α × W) : Res E (List α × W) (Out α) :=
  match specStep N s.1 o with
  | some (l, r) => .ok (l, s.2) r
  | none => .ub

/-- The bounded queue with the policy in front of it: what the policy refuses is not done. -/
def guarded (P : Policy E W) (N : Nat) (o : Op α) (s : List α × W) : Res E (List α × W) (Out α) :=
  match asked N s.1 o with
  | none => allowed N o s
  | some c =>
    match (P c s.2).2 with
    | .returns => allowed N o (s.1, (P c s.2).1)
    | .throws e => .threw (s.1, (P c s.2).1) e
    | .stops => .terminated

/-- The policy returns only if the documentation says that the operation is safe. -/
def Sound (P : Policy E W) : Prop := ∀ c w, (P c w).2 = .returns → c.Safe

/-- The most elements that the abstract queue holds at any time of a history in which what it does not allow is not done. -/
def peak (N : Nat) : List α → List (Op α) → Nat
  | l, [] => l.length
  | l, o :: os => max l.length (peak N (((specStep N l o).map (·.1)).getD l) os)

/-- A policy with a mark: what is not safe is refused by an exception, and the mark is the largest number of elements there have been. -/
def marking : Policy Unit Nat
  | .push size capacity, w => if size < capacity then (max w (size + 1), .returns) else (w, .throws ())
  | .pop size, w => if 0 < size then (w, .returns) else (w, .throws ())

/-- A policy that keeps the last `k` places free, and stops the program when there is nothing to pop. -/
def reserving (k : Nat) : Policy Unit Unit
  | .push size capacity, w => if size + k < capacity then (w, .returns) else (w, .throws ())
  | .pop size, w => if 0 < size then (w, .returns) else (w, .stops)

end Verif.Policy
