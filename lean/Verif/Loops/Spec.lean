import Verif.Loops.Model

/-!
# Specification of loops that change the container
-/

namespace Verif.Loops

open Verif.Buf

/-- A body that only appends to a container of capacity `N`: whenever it ends normally, iteration gives the elements that there were,
followed by others, and the capacity is what it was. -/
def Appends {ε σ : Type} (N : Nat) (body : σ → Buf ε → ε → Outcome (σ × Buf ε)) : Prop :=
  ∀ s b x s' b' l, body s b x = .ok (s', b') → b.storage.length = N → elems b = .ok l →
    b'.storage.length = N ∧ ∃ more, elems b' = .ok (l ++ more)

/-- A body that is defined, and leaves a container of capacity `N`, whenever it is given an element that is in the container. -/
def DefinedOnElements {ε σ : Type} (N : Nat) (body : σ → Buf ε → ε → Outcome (σ × Buf ε)) : Prop :=
  ∀ s b x l, b.storage.length = N → elems b = .ok l → x ∈ l →
    ∃ s' b' l', body s b x = .ok (s', b') ∧ b'.storage.length = N ∧ elems b' = .ok l'

/-- The elements that can be reached from the elements of `s` by steps from `x` to the elements of `g x`. -/
inductive Reach {α : Type} (g : α → List α) (s : α → Prop) : α → Prop where
  | start {x : α} : s x → Reach g s x
  | step {x y : α} : Reach g s x → y ∈ g x → Reach g s y

end Verif.Loops
