import Verif.Judge.Model
import Verif.Unwind.Spec

/-!
# Specification: a comparison returns the truth or throws
-/

namespace Verif.Judge

open Verif.Unwind Verif.Buf

variable {E W R B α κ ν : Type}

/-- A comparison that returns gives the answer of `==`; whether it throws, and what else it does, is up to it. -/
def Truthful [BEq α] (eq : Fn E W (α × α) Bool) : Prop :=
  ∀ x y w w' c, eq (x, y) w = (w', .ok c) → c = (x == y)

/-- `w'` and `e` are what a comparison of `x` and `y` has left and thrown. -/
def From (eq : Fn E W (α × α) Bool) (w' : W) (e : E) : Prop := ∃ x y w, eq (x, y) w = (w', .error e)

/-- A call agrees with one whose comparisons do not throw: it does the same if it returns; an exception comes from a comparison, and leaves
the object as `left` says; undefined behaviour is that of the other. -/
def Sim (res : Res E (B × W) R) (pure : Outcome (B × R)) (left : B → Prop) (src : W → E → Prop) : Prop :=
  match res with
  | .ok s r => pure = .ok (s.1, r)
  | .threw s e => left s.1 ∧ src s.2 e
  | .ub => ∀ x, pure ≠ .ok x
  | .terminated => False

/-- Which operations of a history, and in which form, have had an effect: those that returned, and none that threw, but `part o` tells what
part of `o` may have been done when it throws. -/
inductive Took {O Q : Type} (part : O → O → Q → Prop) : List O → List (Option Q) → List O → List Q → Prop where
  | nil : Took part [] [] [] []
  | returned {o os r rs es qs} : Took part os rs es qs → Took part (o :: os) (some r :: rs) (o :: es) (r :: qs)
  | threw {o os rs es qs} : Took part os rs es qs → Took part (o :: os) (none :: rs) es qs
  | partly {o o' q os rs es qs} : part o o' q → Took part os rs es qs → Took part (o :: os) (none :: rs) (o' :: es) (q :: qs)

/-- The part of `merge` done before an exception: a first part of the elements. -/
inductive SetPart : CxSet.Op α → CxSet.Op α → CxSet.Out α → Prop where
  | merge (pre post : List α) : SetPart (.merge (pre ++ post)) (.merge pre) .unit

/-- No operation of a map is done in part. -/
def MapPart (_ _ : CxMap.Op κ ν) (_ : CxMap.Out κ ν) : Prop := False

/-- The parts of operations of a multimap: of those on its sets, and for `erase(k, v)` the removal of `v`, with the key left behind. -/
inductive MMPart : CxMultimap.Op κ ν → CxMultimap.Op κ ν → CxMultimap.Out κ ν → Prop where
  | onSet (k : κ) {o o' q} : SetPart o o' q → MMPart (.onSet k o) (.onSet k o') (.fromSet q)
  | erase (k : κ) (v : ν) (n : Nat) : MMPart (.erase k v) (.onSet k (.erase v)) (.fromSet (.nat n))

end Verif.Judge
