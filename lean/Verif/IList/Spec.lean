import Verif.IList.Model

/-!
# Specification of `intrusive_list`: a sequence of nodes
-/

namespace Verif.IList

/-- Effect of an operation on the abstract sequence, and its result; `none` when the
operation is not allowed on this sequence. -/
def specStep (l : List Nat) : Op → Option (List Nat × Out)
  | .pushFront n => some (n :: l, .unit)
  | .pushBack n => some (l ++ [n], .unit)
  | .insert none n => some (l ++ [n], .unit)
  | .insert (some x) n =>
    if x ∈ l then some (l.takeWhile (· ≠ x) ++ n :: l.dropWhile (· ≠ x), .unit) else none
  | .popFront => match l with | [] => none | x :: xs => some (xs, .node (some x))
  | .popBack => match l.getLast? with | none => none | some x => some (l.dropLast, .node (some x))
  | .clear => some ([], .unit)
  | .remove n => if n ∈ l then some (l.filter (· ≠ n), .unit) else none
  | .empty => some (l, .bool (decide (l = [])))
  | .front => match l with | [] => none | x :: _ => some (l, .node (some x))
  | .back => match l.getLast? with | none => none | some x => some (l, .node (some x))
  | .iterate => some (l, .nodes l)
  | .iterateBack => some (l, .nodes l.reverse)

/-- The node an operation adds to a list. -/
def Op.added : Op → Option Nat
  | .pushFront n => some n
  | .pushBack n => some n
  | .insert _ n => some n
  | _ => none

/-- Node preconditions: a node that is added exists and is in no list; with the unchecked
policy, appending through `insert(end(), n)` to a non-empty list is excluded (see
`C22_insert_end_violated`; `push_back` is not restricted). -/
def NodeOk {ι : Type} (c : Cfg) (size : Nat) (ls : ι → List Nat) (i : ι) (o : Op) : Prop :=
  (∀ n, o.added = some n → n < size ∧ ∀ j, n ∉ ls j) ∧
  (∀ n, o = .insert none n → ls i ≠ [] → c.policy = .checked)

/-- The abstract run of a history over the family of sequences. -/
inductive SpecRun {ι : Type} [DecidableEq ι] (c : Cfg) (size : Nat) :
    (ι → List Nat) → List (ι × Op) → (ι → List Nat) → List Out → Prop where
  | nil (ls) : SpecRun c size ls [] ls []
  | cons {ls i o l' r os ls' rs} (h : specStep (ls i) o = some (l', r))
      (hn : NodeOk c size ls i o)
      (hr : SpecRun c size (fun j => if j = i then l' else ls j) os ls' rs) :
      SpecRun c size ls ((i, o) :: os) ls' (r :: rs)

end Verif.IList
