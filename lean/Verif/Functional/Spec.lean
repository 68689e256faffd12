import Verif.Functional.Model

/-!
# Specification: programs that call their function objects themselves

The same programs with plain function objects instead of wrappers: where a wrapper is converted, the function object
is called, and nothing is called anywhere else.
-/

namespace Verif.Functional.Spec

/-- A call `f()` of a function object with members `t`, as a constant or not: the result, its members and the outside
afterwards. -/
def Calls {τ σ α : Type} (F : Callable τ σ α) (const : Bool) (t : τ) (s : σ) (r : Option α) (t' : τ) (s' : σ) : Prop :=
  (const = false ∧ ∃ g, F.onMut = some g ∧ g t s = (r, t', s')) ∨
  ((const = true ∨ F.onMut = none) ∧ ∃ g, F.onConst = some g ∧ g t s = (r, s') ∧ t' = t)

/-- `Plain F n m s ops rs m' s' k`: with `n` function objects, whose members are `m`, and the outside `s`, the program
`ops` gives the results `rs`, leaves `m'` and `s'`, and makes `k` calls. -/
inductive Plain {τ σ α : Type} (F : Callable τ σ α) :
    Nat → (Nat → τ) → σ → List (Op τ) → List (Made τ α) → (Nat → τ) → σ → Nat → Prop where
  | done {n m s} : Plain F n m s [] [] m s 0
  | wrap {n m s t ops rs m' s' k} :
      Plain F (n + 1) (fun j => if j = n then t else m j) s ops rs m' s' k →
      Plain F n m s (.wrap t :: ops) (.nothing :: rs) m' s' k
  | copy {n m s i ops rs m' s' k} : i < n →
      Plain F (n + 1) (fun j => if j = n then m i else m j) s ops rs m' s' k →
      Plain F n m s (.copy i :: ops) (.nothing :: rs) m' s' k
  | pass {n m s i ops rs m' s' k} : i < n → Plain F n m s ops rs m' s' k →
      Plain F n m s (.pass i :: ops) (.nothing :: rs) m' s' k
  | call {n m s i c a t s1 ops rs m' s' k} : i < n → Calls F c (m i) s (some a) t s1 →
      Plain F n (fun j => if j = i then t else m j) s1 ops rs m' s' k →
      Plain F n m s (.convert i c :: ops) (.value a :: rs) m' s' (k + 1)
  | throws {n m s i c t s1 ops rs m' s' k} : i < n → Calls F c (m i) s none t s1 →
      Plain F n (fun j => if j = i then t else m j) s1 ops rs m' s' k →
      Plain F n m s (.convert i c :: ops) (.threw :: rs) m' s' (k + 1)

end Verif.Functional.Spec
