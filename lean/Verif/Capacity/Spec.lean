import Verif.Capacity.Model

/-! # What `ct_capacity` promises (docs/iterator.adoc) -/

namespace Verif.Capacity

/-- The capacity of a type that has one known at compile time: of an array its length, of a span its extent
unless dynamic, of a container the number of elements it has room for — of a multimap, the number of keys. -/
def Shape.capacity (w : Nat) : Shape → Option Nat
  | .stdArray n => some n
  | .cArray n => some n
  | .stdSpan n => if n + 1 = 2 ^ w then none else some n
  | .span n => if n + 1 = 2 ^ w then none else some n
  | .cxVector n => some n
  | .cxMap n => some n
  | .cxMultimap n _ => some n
  | .cxQueue n => some n
  | .cxSet n => some n
  | .other => none

/-- Insert elements one after the other. -/
def insertAll {σ β : Type} (ins : σ → β → Option σ) : σ → List β → Option σ
  | s, [] => some s
  | s, x :: xs => (ins s x).bind fun s' => insertAll ins s' xs

/-- A container, from its empty state, takes any number of different elements up to `n` and no more. -/
def RoomFor {σ β : Type} (ins : σ → β → Option σ) (empty : σ) (n : Nat) : Prop :=
  ∀ xs : List β, xs.Nodup → ((insertAll ins empty xs).isSome = true ↔ xs.length ≤ n)

end Verif.Capacity
