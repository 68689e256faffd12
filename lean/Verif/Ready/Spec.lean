import Verif.Ready.Model

/-!
# Specification: tasks in the order in which they became ready
-/

namespace Verif.Ready

/-- The tasks that are ready, with their priorities, in the order in which they became ready. -/
abbrev Tasks := List (Nat × Nat)

/-- A command, what it returns, and what is ready after it.  The next task is the first of those with the least number as priority. -/
inductive Step (N size : Nat) : Tasks → Cmd → Option Nat → Tasks → Prop where
  | ready {t n p} (hn : n < size) (hp : p < N) (hf : ∀ e ∈ t, e.1 ≠ n) : Step N size t (.ready n p) none (t ++ [(n, p)])
  | block {A B n p} : Step N size (A ++ (n, p) :: B) (.block n p) none (A ++ B)
  | rotate {A B n p} (hA : ∀ e ∈ A, e.2 ≠ p) : Step N size (A ++ (n, p) :: B) (.rotate p) none (A ++ B ++ [(n, p)])
  | next {A B n p} (hA : ∀ e ∈ A, p < e.2) (hB : ∀ e ∈ B, p ≤ e.2) : Step N size (A ++ (n, p) :: B) .next (some n) (A ++ B)
  | idle : Step N size [] .next none []

/-- Histories. -/
inductive Runs (N size : Nat) : Tasks → List Cmd → List (Option Nat) → Tasks → Prop where
  | nil (t) : Runs N size t [] [] t
  | cons {t k r t' ks rs t''} (h : Step N size t k r t') (hr : Runs N size t' ks rs t'') : Runs N size t (k :: ks) (r :: rs) t''

end Verif.Ready
