import Verif.Refs.Model
import Verif.CxSet.Spec
import Verif.CxMap.Spec

/-!
# Specification of references and writes through iterators
-/

namespace Verif.Refs

open Verif.Buf

/-- After every operation of the history there are more than `i` elements. -/
def Above {α ο ρ : Type} (step : Buf α → ο → Outcome (Buf α × ρ)) (i : Nat) : Buf α → List ο → Prop
  | _, [] => True
  | b, o :: os => ∀ b1 r, step b o = .ok (b1, r) → i < b1.size ∧ Above step i b1 os

/-- Operations on a map, and loops that change the values through the iterators. -/
inductive MOp (κ ν : Type) where
  | op (o : CxMap.Op κ ν)
  | updateValues (f : κ → ν → ν)

/-- Operations on a set, and loops that change the elements through the iterators. -/
inductive SOp (α : Type) where
  | op (o : CxSet.Op α)
  | update (f : α → α)

/-- A history of a map (cx_map.hpp:45-135). -/
def runM {κ ν : Type} [DecidableEq κ] (N : Nat) (b : Buf (κ × ν)) : List (MOp κ ν) → Outcome (Buf (κ × ν) × List (CxMap.Out κ ν))
  | [] => .ok (b, [])
  | .op o :: os => do
    let (b1, r) ← CxMap.step N b o
    let (b2, rs) ← runM N b1 os
    return (b2, r :: rs)
  | .updateValues f :: os => do
    let b1 ← updateValues f b
    let (b2, rs) ← runM N b1 os
    return (b2, .unit :: rs)

/-- A history of a set (cx_set.hpp:31-105). -/
def runS {α : Type} [DecidableEq α] (b : Buf α) : List (SOp α) → Outcome (Buf α × List (CxSet.Out α))
  | [] => .ok (b, [])
  | .op o :: os => do
    let (b1, r) ← CxSet.step b o
    let (b2, rs) ← runS b1 os
    return (b2, r :: rs)
  | .update f :: os => do
    let b1 ← update f b
    let (b2, rs) ← runS b1 os
    return (b2, .unit :: rs)

/-- Effect on the partial function: every value is replaced by what the loop makes of it. -/
def PostM {κ ν : Type} (N : Nat) (m : CxMap.Abs κ ν) : MOp κ ν → CxMap.Abs κ ν → CxMap.Out κ ν → Prop
  | .op o, m', r => CxMap.Post N m o m' r
  | .updateValues f, m', r => (∀ k, m'.fn k = (m.fn k).map (f k)) ∧ m'.card = m.card ∧ r = .unit

/-- Effect on the set: the image. -/
def PostS {α : Type} (s : CxSet.Abs α) : SOp α → CxSet.Abs α → CxSet.Out α → Prop
  | .op o, s', r => CxSet.Post s o s' r
  | .update f, s', r => (∀ y, s'.mem y ↔ ∃ x, s.mem x ∧ f x = y) ∧ s'.card = s.card ∧ r = .unit

/-- Every operation meets its precondition, and no loop over a set makes two elements equal. -/
def AdmissibleS {α : Type} (N : Nat) : CxSet.Abs α → List (SOp α) → Prop
  | _, [] => True
  | s, o :: os => (match o with
      | .op o => CxSet.Pre N s o
      | .update f => ∀ x y, s.mem x → s.mem y → f x = f y → x = y) ∧
    ∀ s' r, PostS s o s' r → AdmissibleS N s' os

/-- Every operation meets its precondition. -/
def AdmissibleM {κ ν : Type} (N : Nat) : CxMap.Abs κ ν → List (MOp κ ν) → Prop
  | _, [] => True
  | m, o :: os => (match o with
      | .op o => CxMap.Pre N m o
      | .updateValues _ => True) ∧ ∀ m' r, PostM N m o m' r → AdmissibleM N m' os

/-- A possible result of a history of a map. -/
def SpecRunM {κ ν : Type} (N : Nat) : CxMap.Abs κ ν → List (MOp κ ν) → CxMap.Abs κ ν → List (CxMap.Out κ ν) → Prop
  | m, [], m', rs => m' = m ∧ rs = []
  | m, o :: os, m', rs => ∃ m1 r rs', PostM N m o m1 r ∧ SpecRunM N m1 os m' rs' ∧ rs = r :: rs'

/-- A possible result of a history of a set. -/
def SpecRunS {α : Type} : CxSet.Abs α → List (SOp α) → CxSet.Abs α → List (CxSet.Out α) → Prop
  | s, [], s', rs => s' = s ∧ rs = []
  | s, o :: os, s', rs => ∃ s1 r rs', PostS s o s1 r ∧ SpecRunS s1 os s' rs' ∧ rs = r :: rs'

end Verif.Refs
