import Verif.CtString.Expr
import Verif.CtString.Props

/-!
# Expressions of `ct_string` and `cts_t` (C113)

Specification: an expression has a text, the texts of its parts in order, and is known by type or not.
-/

namespace Verif.CtString

/-- The text of an expression. -/
def Mixed.text : Mixed → List Char
  | .strLit l | .ctsLit l | .literal l => l
  | .plus a b => a.text ++ b.text
  | .unary a | .ct a => a.text

/-- The text is part of the type of the expression: all parts are of this kind, or `ct` was applied. -/
def Mixed.Typed : Mixed → Prop
  | .ctsLit _ => True
  | .strLit _ | .literal _ => False
  | .plus a b => a.Typed ∧ b.Typed
  | .unary _ => False
  | .ct _ => True

/-- A string literal without suffix. -/
def Mixed.Bare : Mixed → Prop
  | .literal _ => True
  | _ => False

/-- The expressions that make sense: `+` applies to strings, the unary `+` to those known by type. -/
def Mixed.Valid : Mixed → Prop
  | .strLit _ | .ctsLit _ | .literal _ => True
  | .plus a b => a.Valid ∧ b.Valid ∧ ¬ a.Bare ∧ ¬ b.Bare
  | .unary a => a.Valid ∧ a.Typed
  | .ct a => a.Valid

theorem kind_bare {e : Mixed} (h : ¬ e.Bare) {o : Operand} (he : e.eval = .ok o) : o.kind ≠ .array := by
  cases e with
  | literal => exact absurd trivial h
  | strLit l | ctsLit l =>
    simp only [Mixed.eval, ofArray_eq, Outcome.ok_bind, Outcome.pure_eq_ok, Outcome.ok.injEq] at he
    rw [← he]; simp
  | plus a b =>
    simp only [Mixed.eval, Outcome.bind_eq_ok] at he
    obtain ⟨x, _, y, _, he⟩ := he
    unfold plus at he
    split at he <;> simp only [Outcome.bind_eq_ok, Outcome.pure_eq_ok, Outcome.ok.injEq, reduceCtorEq] at he <;>
      (obtain ⟨_, _, rfl⟩ := he; simp)
  | unary a =>
    simp only [Mixed.eval, Outcome.bind_eq_ok] at he
    obtain ⟨x, _, he⟩ := he
    unfold unary at he
    split at he <;> simp only [Outcome.ok.injEq, reduceCtorEq] at he
    rw [← he]; simp
  | ct a =>
    simp only [Mixed.eval, Outcome.bind_eq_ok] at he
    obtain ⟨x, _, he⟩ := he
    unfold ctOf at he
    split at he
    · simp only [ofArray_eq, Outcome.ok_bind, Outcome.pure_eq_ok, Outcome.ok.injEq] at he
      rw [← he]; simp
    · simp only [Outcome.ok.injEq] at he
      rw [← he]; simp

/-- **C113, concatenation.** Every valid expression compiles, however the two kinds are mixed: its text is the texts of its parts in order
with one terminator, and it is a `cts_t` exactly if the text is known by type. -/
theorem C113_expression (e : Mixed) (h : e.Valid) :
    ∃ o, e.eval = .ok o ∧ Holds o.chars e.text ∧ (o.kind = .cts ↔ e.Typed) ∧ (o.kind = .array ↔ e.Bare) := by
  induction e with
  | strLit l => exact ⟨⟨.str, l ++ [nul]⟩, by simp [Mixed.eval, ofArray_eq], rfl, by simp [Mixed.Typed], by simp [Mixed.Bare]⟩
  | ctsLit l => exact ⟨⟨.cts, l ++ [nul]⟩, by simp [Mixed.eval, ofArray_eq], rfl, by simp [Mixed.Typed], by simp [Mixed.Bare]⟩
  | literal l => exact ⟨_, rfl, rfl, by simp [Mixed.Typed], by simp [Mixed.Bare]⟩
  | plus a b iha ihb =>
    obtain ⟨x, hx, tx, kx, bx⟩ := iha h.1
    obtain ⟨y, hy, ty, ky, bY⟩ := ihb h.2.1
    have nx : x.kind ≠ .array := fun e => h.2.2.1 (bx.mp e)
    have ny : y.kind ≠ .array := fun e => h.2.2.2 (bY.mp e)
    obtain ⟨c, hc, tc, _⟩ := C54_ct_string_concat tx ty
    obtain ⟨xk, xc⟩ := x
    obtain ⟨yk, yc⟩ := y
    have kx' : a.Typed ↔ xk = .cts := kx.symm
    have ky' : b.Typed ↔ yk = .cts := ky.symm
    simp only [Mixed.eval, hx, hy, Outcome.ok_bind, Mixed.Typed, Mixed.Bare, kx', ky', Mixed.text]
    simp only at hc nx ny
    cases xk <;> cases yk <;> simp only [plus, hc, Outcome.ok_bind, Outcome.pure_eq_ok] <;>
      first
      | exact absurd rfl nx
      | exact absurd rfl ny
      | exact ⟨_, rfl, tc, by simp, by simp⟩
  | unary a ih =>
    obtain ⟨x, hx, tx, kx, _⟩ := ih h.1
    have : x.kind = .cts := kx.mpr h.2
    exact ⟨⟨.str, x.chars⟩, by simp [Mixed.eval, hx, unary, this], tx, by simp [Mixed.Typed], by simp [Mixed.Bare]⟩
  | ct a ih =>
    obtain ⟨x, hx, tx, kx, _⟩ := ih h
    refine ⟨⟨.cts, x.chars⟩, ?_, tx, by simp [Mixed.Typed], by simp [Mixed.Bare]⟩
    simp only [Mixed.eval, hx, Outcome.ok_bind, ctOf]
    split <;> simp [ofArray_eq]

/-- An expression that is not valid does not compile. -/
theorem C113_rejected (e : Mixed) (h : ¬ e.Valid) : e.eval = .ub := by
  induction e with
  | strLit l | ctsLit l | literal l => exact absurd trivial h
  | plus a b iha ihb =>
    by_cases ha : a.Valid
    · by_cases hb : b.Valid
      · obtain ⟨x, hx, _, _, bx⟩ := C113_expression a ha
        obtain ⟨y, hy, _, _, bY⟩ := C113_expression b hb
        simp only [Mixed.eval, hx, hy, Outcome.ok_bind]
        have : x.kind = .array ∨ y.kind = .array := by
          rw [bx, bY]
          by_cases h1 : a.Bare
          · exact .inl h1
          · by_cases h2 : b.Bare
            · exact .inr h2
            · exact absurd ⟨ha, hb, h1, h2⟩ h
        unfold plus
        split <;> simp_all
      · obtain ⟨x, hx, _⟩ := C113_expression a ha
        simp [Mixed.eval, hx, ihb hb]
    · simp [Mixed.eval, iha ha]
  | unary a ih =>
    by_cases ha : a.Valid
    · obtain ⟨x, hx, _, kx, _⟩ := C113_expression a ha
      have : x.kind ≠ .cts := fun e => h ⟨ha, kx.mp e⟩
      simp only [Mixed.eval, hx, Outcome.ok_bind, unary]
    · simp [Mixed.eval, ih ha]
  | ct a ih => simp [Mixed.eval, ih h]

/-- **C113, equality, partial.** Two strings of the same kind are equal exactly if their texts are, whatever their sizes.  Missing: a `ct_string` and a
`cts_t` (`C113_mixed_equality_violated`). -/
theorem C113_equality_partial (a b : Mixed) (ha : a.Valid) (hb : b.Valid) (na : ¬ a.Bare) (nb : ¬ b.Bare)
    (hk : a.Typed ↔ b.Typed) :
    ∃ x y r, a.eval = .ok x ∧ b.eval = .ok y ∧ equal x y = .ok r ∧ (r = true ↔ a.text = b.text) := by
  obtain ⟨x, hx, tx, kx, bx⟩ := C113_expression a ha
  obtain ⟨y, hy, ty, ky, bY⟩ := C113_expression b hb
  have nx : x.kind ≠ .array := fun e => na (bx.mp e)
  have ny : y.kind ≠ .array := fun e => nb (bY.mp e)
  have hk' : x.kind = .cts ↔ y.kind = .cts := kx.trans (hk.trans ky.symm)
  have hv : ∀ {s l}, Holds s l → view s = .ok l := by
    intro s l h
    have := size_of h
    rw [Holds] at h
    subst h
    rw [view, this, if_pos (by simp)]
    simp
  refine ⟨x, y, a.text == b.text, hx, hy, ?_, by simp⟩
  have he : eq x.chars y.chars = .ok (a.text == b.text) := by simp [eq, hv tx, hv ty]
  unfold equal
  rw [he]
  cases hxk : x.kind <;> cases hyk : y.kind <;> rw [hxk, hyk] at hk' <;> first
    | rfl
    | exact absurd hxk nx
    | exact absurd hyk ny
    | simp at hk'

/-- **C113 fails for mixed comparisons.** A `ct_string` and a `cts_t` cannot be compared, in either order, although they can be concatenated; nor
can either be compared with a string literal. -/
theorem C113_mixed_equality_violated (a b : Mixed) (ha : a.Valid) (hb : b.Valid) (hk : ¬ (a.Typed ↔ b.Typed) ∨ a.Bare ∨ b.Bare) :
    ∃ x y, a.eval = .ok x ∧ b.eval = .ok y ∧ equal x y = .ub ∧ equal y x = .ub := by
  obtain ⟨x, hx, tx, kx, bx⟩ := C113_expression a ha
  obtain ⟨y, hy, ty, ky, bY⟩ := C113_expression b hb
  refine ⟨x, y, hx, hy, ?_⟩
  rw [← kx, ← ky, ← bx, ← bY] at hk
  cases hxk : x.kind <;> cases hyk : y.kind <;> simp_all [equal]

/-- `("Hello"_ctst + " wo"_cts) + ct<+"rld"_ctst>()` meets the hypotheses; it is a `ct_string`. -/
example : let e := Mixed.plus (.plus (.ctsLit ['H']) (.strLit ['w'])) (.ct (.unary (.ctsLit ['d'])))
    e.Valid ∧ ¬ e.Typed ∧ e.text = ['H', 'w', 'd'] ∧ e.eval = .ok ⟨.str, ['H', 'w', 'd', nul]⟩ := by
  refine ⟨by simp [Mixed.Valid, Mixed.Bare, Mixed.Typed], by simp [Mixed.Typed], rfl, by decide⟩

/-- A `ct_string` and a `cts_t` with the same text cannot be compared, and `+` takes no string literal. -/
example : (do let x ← (Mixed.strLit ['a']).eval; let y ← (Mixed.ctsLit ['a']).eval; equal x y) = .ub ∧
    ¬ (Mixed.plus (.strLit ['a']) (.literal ['b'])).Valid ∧ (Mixed.plus (.strLit ['a']) (.literal ['b'])).eval = .ub := by
  refine ⟨by decide, by simp [Mixed.Valid, Mixed.Bare], by decide⟩

end Verif.CtString
