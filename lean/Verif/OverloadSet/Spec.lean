import Verif.OverloadSet.Model

/-!
# Specification: a set of overloaded functions
-/

namespace Verif.OverloadSet

variable {A : Type}

/-- All functions that are given: those of the first function object, those of the second, and so on. -/
def functions : List (Callee A) → List (Op A)
  | [] => []
  | f :: fs => f.ops ++ functions fs

/-- One function fits the arguments better than another: no argument worse, and one better or, if all are alike, the rules for functions that
fit alike decide. -/
def Fits (tie : Nat → Nat → Bool) (i j : Nat) (r s : List Nat) : Prop :=
  (∀ k (h : k < r.length) (h' : k < s.length), r[k] ≤ s[k]) ∧
    ((∃ k, ∃ (h : k < r.length) (h' : k < s.length), r[k] < s[k]) ∨ tie i j = true)

/-- Function `i` is the one that fits the arguments best of those that take them and satisfy `p`. -/
def Best (tie : Nat → Nat → Bool) (p : Op A → Prop) (os : List (Op A)) (a : A) (i : Nat) : Prop :=
  ∃ o ∈ os, p o ∧ o.id = i ∧ ∃ r, o.takes a = some r ∧
    ∀ o' ∈ os, p o' → o'.id ≠ i → ∀ s, o'.takes a = some s → Fits tie i o'.id r s

/-- What is assumed of the functions: each has a name of its own, and the rules for functions that fit alike do not prefer both. -/
structure Ok (tie : Nat → Nat → Bool) (os : List (Op A)) : Prop where
  nodup : (os.map Op.id).Nodup
  asymm : ∀ i j, tie i j = true → tie j i = false

end Verif.OverloadSet
