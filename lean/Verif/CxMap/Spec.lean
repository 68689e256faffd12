import Verif.CxMap.Model

/-!
# Specification of `cx_map`: a finite partial function with the size of its domain
-/

namespace Verif.CxMap

/-- A finite partial function and the size of its domain.  That `card` really is the size of
the domain is part of the postcondition of `iterate`. -/
structure Abs (κ ν : Type) where
  fn : κ → Option ν
  card : Nat

/-- The empty map. -/
def Abs.empty {κ ν : Type} : Abs κ ν := ⟨fun _ => none, 0⟩

variable {κ ν : Type}

/-- Preconditions: room for a new key, something to pop, a present key to `get`. -/
def Pre (N : Nat) (m : Abs κ ν) : Op κ ν → Prop
  | .put k _ => m.fn k ≠ none ∨ m.card < N
  | .popBack => m.card ≠ 0
  | .get k => m.fn k ≠ none
  | .assignGet k _ => m.fn k ≠ none
  | _ => True

/-- Effect and returned value. -/
def Post (N : Nat) (m : Abs κ ν) (o : Op κ ν) (m' : Abs κ ν) (r : Out κ ν) : Prop :=
  match o with
  | .put k v => m'.fn k = some v ∧ (∀ x, x ≠ k → m'.fn x = m.fn x) ∧
      (m.fn k ≠ none → m'.card = m.card ∧ r = .bool false) ∧
      (m.fn k = none → m'.card = m.card + 1 ∧ r = .bool true)
  | .erase k => m'.fn k = none ∧ (∀ x, x ≠ k → m'.fn x = m.fn x) ∧
      (m.fn k ≠ none → m'.card + 1 = m.card ∧ r = .nat 1) ∧
      (m.fn k = none → m'.card = m.card ∧ r = .nat 0)
  | .popBack => ∃ k v, m.fn k = some v ∧ m'.fn k = none ∧ (∀ x, x ≠ k → m'.fn x = m.fn x) ∧
      m'.card + 1 = m.card ∧ r = .pair k v
  | .clear => (∀ x, m'.fn x = none) ∧ m'.card = 0 ∧ r = .unit
  | .contains k => m' = m ∧ r = .bool (m.fn k).isSome
  | .get k => m' = m ∧ ∃ v, m.fn k = some v ∧ r = .val v
  | .assignGet k v => m'.fn k = some v ∧ (∀ x, x ≠ k → m'.fn x = m.fn x) ∧
      m'.card = m.card ∧ r = .unit
  | .size => m' = m ∧ r = .nat m.card
  | .empty => m' = m ∧ r = .bool (decide (m.card = 0))
  | .full => m' = m ∧ r = .bool (decide (m.card = N))
  | .iterate => m' = m ∧ ∃ l : List (κ × ν), r = .list l ∧ (l.map Prod.fst).Nodup ∧
      (∀ k v, (k, v) ∈ l ↔ m.fn k = some v) ∧ l.length = m.card

/-- A history all of whose operations meet their preconditions, whatever the unspecified
choices (which pair `pop_back` removes) were. -/
def Admissible (N : Nat) : Abs κ ν → List (Op κ ν) → Prop
  | _, [] => True
  | m, o :: os => Pre N m o ∧ ∀ m' r, Post N m o m' r → Admissible N m' os

/-- `m'` and `rs` are a possible result of a history from `m`. -/
def SpecRun (N : Nat) : Abs κ ν → List (Op κ ν) → Abs κ ν → List (Out κ ν) → Prop
  | m, [], m', rs => m' = m ∧ rs = []
  | m, o :: os, m', rs =>
    ∃ m1 r rs', Post N m o m1 r ∧ SpecRun N m1 os m' rs' ∧ rs = r :: rs'

end Verif.CxMap
