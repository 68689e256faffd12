import Verif.CxVector.Model

/-!
# Specification of `cx_vector`: a list of at most `N` elements

The specification never mentions the storage; `resize_and_overwrite` is given the current
elements followed by *some* unspecified elements up to the capacity.
-/

namespace Verif.CxVector

/-- Documented precondition of an operation on a vector that holds `l`. -/
def Pre {α : Type} (N : Nat) (l : List α) : Op α → Prop
  | .pushBack _ => l.length < N
  | .popBack => l ≠ []
  | .front => l ≠ []
  | .back => l ≠ []
  | .index i => i < l.length
  | .assign i _ => i < l.length
  | .resize f => ∀ stale : List α, l.length + stale.length = N →
      (f (l ++ stale)).1.length = N ∧ (f (l ++ stale)).2 ≤ N
  | _ => True

/-- Effect of an operation on the abstract list: new list and returned value. -/
def Post {α : Type} (N : Nat) (l : List α) (o : Op α) (l' : List α) (r : Out α) : Prop :=
  match o with
  | .pushBack x => l' = l ++ [x] ∧ r = .val x
  | .popBack => ∃ x, l = l' ++ [x] ∧ r = .val x
  | .front => l' = l ∧ ∃ x, l.head? = some x ∧ r = .val x
  | .back => l' = l ∧ ∃ x, l.getLast? = some x ∧ r = .val x
  | .index i => l' = l ∧ ∃ x, l[i]? = some x ∧ r = .val x
  | .assign i x => l' = l.take i ++ x :: l.drop (i + 1) ∧ r = .unit
  | .size => l' = l ∧ r = .nat l.length
  | .empty => l' = l ∧ r = .bool (decide (l = []))
  | .full => l' = l ∧ r = .bool (decide (l.length = N))
  | .clear => l' = [] ∧ r = .unit
  | .resize f => (∃ stale : List α, l.length + stale.length = N ∧
      l' = (f (l ++ stale)).1.take (f (l ++ stale)).2) ∧ r = .unit
  | .iterate => l' = l ∧ r = .list l

instance {α : Type} [DecidableEq α] (l : List α) : Decidable (l = []) := inferInstance

/-- A history all of whose operations meet their preconditions, whatever the unspecified
choices were. -/
def Admissible {α : Type} (N : Nat) : List α → List (Op α) → Prop
  | _, [] => True
  | l, o :: os => Pre N l o ∧ ∀ l' r, Post N l o l' r → Admissible N l' os

/-- `l'` and `rs` are a possible result of a history from `l`. -/
def SpecRun {α : Type} (N : Nat) : List α → List (Op α) → List α → List (Out α) → Prop
  | l, [], l', rs => l' = l ∧ rs = []
  | l, o :: os, l', rs => ∃ l1 r rs', Post N l o l1 r ∧ SpecRun N l1 os l' rs' ∧ rs = r :: rs'

end Verif.CxVector
