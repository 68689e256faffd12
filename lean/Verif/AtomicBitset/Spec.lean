import Verif.AtomicBitset.Model

/-!
# Specification of `atomic_bitset` operations: a set of positions below `N`
-/

namespace Verif.AtomicBitset

open Verif.Bitset

/-- What an operation does to position `i`: nothing, or a function of its old value. -/
def Op.effect {w : Nat} (i : Nat) : Op w → Option (Bool → Bool)
  | .load => none
  | .store b => some fun _ => Bitset.get b i = .ok true
  | .set pos v => if i = pos then some fun _ => v else none
  | .setRange l m v => if l ≤ i ∧ i ≤ m then some fun _ => v else none
  | .setLen l n v => if l ≤ i ∧ i < l + n then some fun _ => v else none
  | .setAll => some fun _ => true
  | .reset pos => if i = pos then some fun _ => false else none
  | .resetRange l m => if l ≤ i ∧ i ≤ m then some fun _ => false else none
  | .resetLen l n => if l ≤ i ∧ i < l + n then some fun _ => false else none
  | .resetAll => some fun _ => false
  | .flip pos => if i = pos then some fun b => !b else none
  | .flipRange l m => if l ≤ i ∧ i ≤ m then some fun b => !b else none
  | .flipLen l n => if l ≤ i ∧ i < l + n then some fun b => !b else none
  | .flipAll => some fun b => !b

/-- The set after an operation. -/
def Op.after {w : Nat} (st : Nat → Bool) (op : Op w) (i : Nat) : Bool :=
  match op.effect i with
  | none => st i
  | some f => f (st i)

/-- Operations that return the previous value. -/
def Op.returnsPrev {w : Nat} : Op w → Bool
  | .store _ | .setAll | .resetAll => false
  | _ => true

/-- Preconditions: positions inside the storage word, ranges non-empty, stored bitsets of the right size. -/
def Op.Legal {w : Nat} (N : Nat) : Op w → Prop
  | .load | .setAll | .resetAll | .flipAll => True
  | .store b => b.length = storageSize w N
  | .set pos _ | .reset pos | .flip pos => pos < w
  | .setRange l m _ | .resetRange l m | .flipRange l m => l ≤ m ∧ m < w
  | .setLen l n _ | .resetLen l n | .flipLen l n => 0 < n ∧ l + n ≤ w

end Verif.AtomicBitset
