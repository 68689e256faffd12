import Verif.CxSet.Model

/-!
# Specification of `cx_set`: a finite mathematical set with its cardinality
-/

namespace Verif.CxSet

/-- A finite set: membership and cardinality.  That `card` really is the number of members
is part of the postcondition of `iterate`. -/
structure Abs (α : Type) where
  mem : α → Prop
  card : Nat

/-- The empty set. -/
def Abs.empty {α : Type} : Abs α := ⟨fun _ => False, 0⟩

/-- Preconditions: room for the new elements, something to pop. -/
def Pre {α : Type} (N : Nat) (s : Abs α) : Op α → Prop
  | .insert k => s.mem k ∨ s.card < N
  | .merge xs => ∀ ys : List α, ys.Nodup → (∀ y ∈ ys, y ∈ xs ∧ ¬ s.mem y) →
      s.card + ys.length ≤ N
  | .popBack => s.card ≠ 0
  | _ => True

/-- Effect and returned value. -/
def Post {α : Type} (s : Abs α) (o : Op α) (s' : Abs α) (r : Out α) : Prop :=
  match o with
  | .insert k => (∀ x, s'.mem x ↔ x = k ∨ s.mem x) ∧
      (s.mem k → s'.card = s.card ∧ r = .bool false) ∧
      (¬ s.mem k → s'.card = s.card + 1 ∧ r = .bool true)
  | .erase k => (∀ x, s'.mem x ↔ x ≠ k ∧ s.mem x) ∧
      (s.mem k → s'.card + 1 = s.card ∧ r = .nat 1) ∧
      (¬ s.mem k → s'.card = s.card ∧ r = .nat 0)
  | .merge xs => (∀ x, s'.mem x ↔ x ∈ xs ∨ s.mem x) ∧ r = .unit ∧
      ∃ ys : List α, ys.Nodup ∧ (∀ y, y ∈ ys ↔ y ∈ xs ∧ ¬ s.mem y) ∧
        s'.card = s.card + ys.length
  | .popBack => ∃ k, s.mem k ∧ (∀ x, s'.mem x ↔ x ≠ k ∧ s.mem x) ∧ s'.card + 1 = s.card ∧
      r = .val k
  | .clear => (∀ x, ¬ s'.mem x) ∧ s'.card = 0 ∧ r = .unit
  | .contains k => s' = s ∧ ∃ b, r = .bool b ∧ (b = true ↔ s.mem k)
  | .size => s' = s ∧ r = .nat s.card
  | .empty => s' = s ∧ ∃ b, r = .bool b ∧ (b = true ↔ ∀ x, ¬ s.mem x)
  | .iterate => s' = s ∧ ∃ l : List α, r = .list l ∧ l.Nodup ∧ (∀ x, x ∈ l ↔ s.mem x) ∧
      l.length = s.card

/-- A history all of whose operations meet their preconditions, whatever the unspecified
choices (which element `pop_back` removes) were. -/
def Admissible {α : Type} (N : Nat) : Abs α → List (Op α) → Prop
  | _, [] => True
  | s, o :: os => Pre N s o ∧ ∀ s' r, Post s o s' r → Admissible N s' os

/-- `s'` and `rs` are a possible result of a history from `s`. -/
def SpecRun {α : Type} : Abs α → List (Op α) → Abs α → List (Out α) → Prop
  | s, [], s', rs => s' = s ∧ rs = []
  | s, o :: os, s', rs => ∃ s1 r rs', Post s o s1 r ∧ SpecRun s1 os s' rs' ∧ rs = r :: rs'

end Verif.CxSet
