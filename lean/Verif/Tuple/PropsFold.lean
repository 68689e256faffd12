import Verif.Tuple.Props
import Mathlib.Tactic.Ring
import Mathlib.Tactic.Linarith

/-!
# The right fold as documented (C59)

docs/tuple.adoc:112-113 says that `fold_right` of `1, 2, 3` with the initial value 0 computes `(0 + (1 + (2 + 3)))`.
-/

namespace Verif.Tuple

variable {α σ τ : Type}

/-! ## Specification -/

/-- The documented expression, with a function `f` in place of `+`: the initial value on the left, the elements to the right of it. -/
def documentedRight (f : α → α → α) : α → List α → α
  | a, [] => a
  | a, x :: xs => f a (documentedRight f x xs)

/-- `x₁ - x₂ + x₃ - …`. -/
def alternating : List Int → Int
  | [] => 0
  | x :: xs => x - alternating xs

/-! ## Lemmas -/

theorem foldr_first (call : Call τ α α α σ) (op : τ) (s : σ) (f : α → α → α) (hf : ∀ x y, call.first op x y s = (f x y, s))
    (init : α) : ∀ t : List α, t.foldr (fun x r => call.first op x r.1 r.2) (init, s) = (t.foldr f init, s)
  | [] => rfl
  | x :: xs => by rw [List.foldr_cons, foldr_first call op s f hf init xs, List.foldr_cons]; exact hf _ _

theorem documented_sub (t : List Int) : ∀ a : Int, documentedRight (· - ·) a t = a - alternating t := by
  induction t with
  | nil => intro a; simp [documentedRight, alternating]
  | cons x xs ih => intro a; simp only [documentedRight, alternating, ih]

/-! ## Theorems -/

/-- **C59, fold_right, partial.** If the function is associative and commutative, and always the same, the result is that of the documented
expression.  Missing: other functions, see below. -/
theorem C59_documented_partial (call : Call τ α α α σ) (op : τ) (s : σ) (f : α → α → α) (hf : ∀ x y, call.first op x y s = (f x y, s))
    (ha : ∀ x y z, f (f x y) z = f x (f y z)) (hc : ∀ x y, f x y = f y x) (init : α) (t : List α) :
    foldRight call op init t s = (documentedRight f init t, s) := by
  rw [(C59_fold_right call op init t s).1, foldr_first call op s f hf]
  congr 1
  have key : ∀ (t : List α) (a b : α), f a (t.foldr f b) = f b (documentedRight f a t) := by
    intro t
    induction t with
    | nil => intro a b; exact hc a b
    | cons x xs ih =>
      intro a b
      rw [List.foldr_cons, documentedRight, ← ha, ih (f a x) b]
      congr 1
      cases xs with
      | nil => rfl
      | cons y ys => simp only [documentedRight, ha]
  cases t with
  | nil => rfl
  | cons x xs => rw [List.foldr_cons, documentedRight, key xs x init]

/-- **C59, fold_right, is not the documented expression**: with subtraction and the initial value 0 the result has the opposite sign, whatever
the tuple, so it is another one unless it is 0. -/
theorem C59_documented_violated (call : Call τ Int Int Int σ) (op : τ) (s : σ) (hf : ∀ x y, call.first op x y s = (x - y, s))
    (t : List Int) :
    (foldRight call op 0 t s).1 = alternating t ∧ documentedRight (· - ·) 0 t = - alternating t ∧
    ((foldRight call op 0 t s).1 = documentedRight (· - ·) 0 t ↔ alternating t = 0) := by
  have h1 : (foldRight call op 0 t s).1 = alternating t := by
    rw [(C59_fold_right call op 0 t s).1, foldr_first call op s (· - ·) hf]
    induction t with
    | nil => rfl
    | cons x xs ih => simp only [List.foldr_cons, alternating] at ih ⊢; rw [ih]
  have h2 : documentedRight (· - ·) 0 t = - alternating t := by rw [documented_sub]; ring
  refine ⟨h1, h2, ?_⟩
  rw [h1, h2]
  constructor <;> intro h <;> omega

/-- `stdx::tuple{1, 2, 3}.fold_right(0, std::minus{})` is 2, the documented expression `0 - (1 - (2 - 3))` is -2. -/
example : (foldRight (fun (_ : Unit) (x y : Int) (s : Unit) => ((x - y, ()), s)) () 0 [1, 2, 3] ()).1 = 2 ∧
    documentedRight (fun x y : Int => x - y) 0 [1, 2, 3] = -2 := by decide

end Verif.Tuple
