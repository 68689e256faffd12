import Verif.FList.Model

/-!
# Specification of `intrusive_forward_list`: a sequence of nodes
-/

namespace Verif.FList

/-- Effect and result on the abstract sequence; `none` when not allowed. -/
def specStep (l : List Nat) : Op → Option (List Nat × Out)
  | .pushFront n => some (n :: l, .unit)
  | .pushBack n => some (l ++ [n], .unit)
  | .popFront => match l with | [] => none | x :: xs => some (xs, .node (some x))
  | .clear => some ([], .unit)
  | .empty => some (l, .bool (decide (l = [])))
  | .front => match l with | [] => none | x :: _ => some (l, .node (some x))
  | .back => match l.getLast? with | none => none | some x => some (l, .node (some x))
  | .iterate => some (l, .nodes l)

/-- The node an operation adds to a list. -/
def Op.added : Op → Option Nat
  | .pushFront n => some n
  | .pushBack n => some n
  | _ => none

/-- Node precondition: an added node exists and is in no list. -/
def NodeOk {ι : Type} (size : Nat) (ls : ι → List Nat) (o : Op) : Prop :=
  ∀ n, o.added = some n → n < size ∧ ∀ j, n ∉ ls j

/-- The abstract run of a history. -/
inductive SpecRun {ι : Type} [DecidableEq ι] (size : Nat) :
    (ι → List Nat) → List (ι × Op) → (ι → List Nat) → List Out → Prop where
  | nil (ls) : SpecRun size ls [] ls []
  | cons {ls i o l' r os ls' rs} (h : specStep (ls i) o = some (l', r))
      (hn : NodeOk size ls o)
      (hr : SpecRun size (fun j => if j = i then l' else ls j) os ls' rs) :
      SpecRun size ls ((i, o) :: os) ls' (r :: rs)

end Verif.FList
