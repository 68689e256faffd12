import Verif.Unwind.Model
import Verif.Algorithm.Lemmas

/-!
# Specification: steps in order, until one throws
-/

namespace Verif.Unwind

variable {E W X A R : Type}

/-- A step of an algorithm: from the value carried along and the world, the world afterwards and the next value or an exception. -/
abbrev Act (E W X : Type) := X → W → W × Except E X

/-- `Runs acts x w w' r`: the steps are taken in order until there is none left or one throws; `w'` is the world then, and `r`
the value carried along or the exception. -/
inductive Runs : List (Act E W X) → X → W → W → Except E X → Prop where
  | done (x w) : Runs [] x w w (.ok x)
  | next {a acts x w x1 w1 w2 r} (h : a x w = (w1, .ok x1)) (hr : Runs acts x1 w1 w2 r) : Runs (a :: acts) x w w2 r
  | stop {a acts x w w1 e} (h : a x w = (w1, .error e)) : Runs (a :: acts) x w w1 (.error e)

/-- What the caller sees. -/
def Res.of (w : W) : Except E R → Res E W R
  | .ok r => .ok w r
  | .error e => .threw w e

/-- A call whose result is not kept. -/
def just (f : Fn E W A Unit) (a : A) : Act E W Unit := fun _ w => f a w

/-- There is exactly one course of events. -/
theorem runs_total (acts : List (Act E W X)) : ∀ (x : X) (w : W), ∃ w' r, Runs acts x w w' r := by
  induction acts with
  | nil => intro x w; exact ⟨w, _, .done x w⟩
  | cons a acts ih =>
    intro x w
    cases h : a x w with
    | mk w1 r =>
      cases r with
      | ok x1 =>
        obtain ⟨w2, r, hr⟩ := ih x1 w1
        exact ⟨w2, r, .next h hr⟩
      | error e => exact ⟨w1, _, .stop h⟩

theorem runs_unique {acts : List (Act E W X)} {x : X} {w w1 w2 : W} {r1 r2 : Except E X} (h1 : Runs acts x w w1 r1)
    (h2 : Runs acts x w w2 r2) : w1 = w2 ∧ r1 = r2 := by
  induction h1 with
  | done => cases h2; exact ⟨rfl, rfl⟩
  | next h _ ih =>
    cases h2 with
    | next h' hr' => rw [h] at h'; cases h'; exact ih hr'
    | stop h' => rw [h] at h'; cases h'
  | stop h =>
    cases h2 with
    | next h' hr' => rw [h] at h'; cases h'
    | stop h' => rw [h] at h'; cases h'; exact ⟨rfl, rfl⟩

/-- An exception that leaves came from one of the steps: all those before it have returned, none after it is taken. -/
theorem runs_threw {acts : List (Act E W X)} {x : X} {w w' : W} {e : E} :
    Runs acts x w w' (.error e) ↔ ∃ pre a post x1 w1, acts = pre ++ a :: post ∧ Runs pre x w w1 (.ok x1) ∧
      a x1 w1 = (w', .error e) := by
  constructor
  · intro h
    generalize hr : Except.error e = r at h
    induction h with
    | done => cases hr
    | next h _ ih =>
      obtain ⟨pre, b, post, y, w3, rfl, h3, h4⟩ := ih hr
      exact ⟨_ :: pre, b, post, y, w3, rfl, .next h h3, h4⟩
    | stop h => cases hr; exact ⟨[], _, _, _, _, rfl, .done _ _, h⟩
  · rintro ⟨pre, a, post, x1, w1, rfl, h, ha⟩
    generalize hr : Except.ok x1 = r at h
    induction h with
    | done => cases hr; exact .stop ha
    | next h _ ih => exact .next h (ih ha hr)
    | stop h => cases hr

theorem runs_append {acts bs : List (Act E W X)} {x : X} {w w2 : W} {r : Except E X} (h : Runs (acts ++ bs) x w w2 r) :
    (∃ x1 w1, Runs acts x w w1 (.ok x1) ∧ Runs bs x1 w1 w2 r) ∨ ∃ e, r = .error e ∧ Runs acts x w w2 (.error e) := by
  induction acts generalizing x w with
  | nil => exact .inl ⟨x, w, .done _ _, h⟩
  | cons a acts ih =>
    cases h with
    | next h hr =>
      rcases ih hr with ⟨x1, w1, h1, h2⟩ | ⟨e, he, h1⟩
      · exact .inl ⟨x1, w1, .next h h1, h2⟩
      · exact .inr ⟨e, he, .next h h1⟩
    | stop h => exact .inr ⟨_, rfl, .stop h⟩

end Verif.Unwind
