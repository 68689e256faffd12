import Verif.Macro.Spec

/-! # `STATIC_ASSERT` and `STDX_PANIC`: the property theorems (C111, C112) -/

namespace Verif.Macro

/-- Tokens without a separating comma are taken whole. -/
theorem firstArg_append (s : Src) (d : Nat) (h : d = 0 → ¬ s.Comma) (t : List Tok) :
    firstArg d (s.toks ++ t) = (s.toks ++ (firstArg d t).1, (firstArg d t).2) := by
  induction s generalizing d t with
  | nil => simp [Src.toks]
  | word s r ih | str s r ih => simp [Src.toks, firstArg, ih d h]
  | greater r ih | shift r ih => simp [Src.toks, firstArg, ih d h]
  | comma r ih =>
    cases d with
    | zero => exact absurd trivial (h rfl)
    | succ d => simp [Src.toks, firstArg, ih (d + 1) (by simp)]
  | par i r ihi ihr =>
    simp only [Src.toks, List.cons_append, List.append_assoc, firstArg]
    rw [ihi (d + 1) (by simp), firstArg]
    simp [ihr d h]
  | sq i r ihi ihr | brace i r ihi ihr | angle i r ihi ihr =>
    simp only [Src.toks, List.cons_append, List.append_assoc, firstArg]
    rw [ihi d (fun e hc => h e (.inl hc)), firstArg]
    simp [ihr d (fun e hc => h e (.inr hc))]
    all_goals simp

/-- Where a `>` ends a list of template arguments. -/
def Ends (st : List Br) : Prop := st = [] ∨ st.head? = some .angle

/-- Proper text without an operator `>` that could end the list is passed over. -/
theorem closeAngle_append (s : Src) (hp : s.Proper) (st : List Br) (h : Ends st → ¬ s.Greater) (t : List Tok) :
    closeAngle st (s.toks ++ t) = (closeAngle st t).map fun r => (s.toks ++ r.1, r.2) := by
  induction s generalizing st t with
  | nil => simp [Src.toks]
  | word s r ih | str s r ih =>
    simp only [Src.toks, List.cons_append, closeAngle, ih hp st h, Option.map_map]
    rfl
  | comma r ih =>
    simp only [Src.toks, List.cons_append, closeAngle, ih hp st h, Option.map_map]
    rfl
  | greater r ih | shift r ih =>
    match st, h with
    | [], h => exact absurd trivial (h (.inl rfl))
    | .angle :: _, h => exact absurd trivial (h (.inr rfl))
    | .par :: st, _ | .sq :: st, _ | .brace :: st, _ =>
      simp only [Src.toks, List.cons_append, closeAngle]
      rw [ih hp (_ :: st) (by simp [Ends]), Option.map_map]
      rfl
  | par i r ihi ihr =>
    simp only [Src.toks, List.cons_append, List.append_assoc, closeAngle, ihi hp.1 (.par :: st) (by simp [Ends]),
      ihr hp.2 st h, Option.map_map]
    congr 1
  | sq i r ihi ihr =>
    simp only [Src.toks, List.cons_append, List.append_assoc, closeAngle, ihi hp.1 (.sq :: st) (by simp [Ends]),
      ihr hp.2 st h, Option.map_map]
    congr 1
  | brace i r ihi ihr =>
    simp only [Src.toks, List.cons_append, List.append_assoc, closeAngle, ihi hp.1 (.brace :: st) (by simp [Ends]),
      ihr hp.2 st h, Option.map_map]
    congr 1
  | angle i r ihi ihr =>
    simp only [Src.toks, List.cons_append, List.append_assoc, closeAngle, ihi hp.1 (.angle :: st) (fun _ => hp.2.1),
      ihr hp.2.2 st h, Option.map_map]
    congr 1

/-- **C111, partial.** For every condition without a `>`, `>>` or separating comma outside parentheses or the brackets that protect it, and every message, `STATIC_ASSERT`
does what `static_assert` would: it compiles, and is `true`, exactly if the condition is true, and otherwise the error
shows the formatted message.  Missing: conditions with `>`, `>>` or such a comma (`C111_greater_violated`,
`C111_comma_violated`) and of types other than `bool` (`C111_not_bool_violated`). -/
theorem C111_static_assert_partial (ev : List Tok → Option Value) (fmt : List Tok → Option (List Char)) (s : Src)
    (hp : s.Proper) (hg : ¬ s.Greater) (hc : ¬ s.Comma) (va : List Tok) :
    staticAssert ev fmt (s.toks ++ .comma :: va) = Spec.assert (ev s.toks) (fmt va) := by
  have h1 := firstArg_append s 0 (fun _ => hc) (.comma :: va)
  have h2 := closeAngle_append s hp [] (fun _ => hg) [.gt, .lpar, .rpar]
  simp only [firstArg, closeAngle, Option.map_some, List.append_nil] at h1 h2
  simp only [staticAssert, h1, h2, Option.getD_some, check]
  cases ev s.toks with
  | none => simp [Spec.assert]
  | some v =>
    cases v with
    | other => simp [Spec.assert]
    | bool b => cases fmt va <;> cases b <;> simp [Spec.assert]

/-- Text with every `>>` written as two `>`. -/
def Spec.split : List Tok → List Tok
  | [] => []
  | .shr :: ts => .gt :: .gt :: Spec.split ts
  | t :: ts => t :: Spec.split ts

theorem Spec.split_cons (t : Tok) (a b c : List Tok) (h : Spec.split a ++ b = Spec.split c) :
    Spec.split (t :: a) ++ b = Spec.split (t :: c) := by
  cases t <;> simp [Spec.split, h]

/-- **C111, nothing is lost.** For every text whatever, what is taken as the template argument and what is left behind its `>` are the
text, with no token added, dropped or changed, but for a `>>` that is read as two `>`. -/
theorem C111_argument_text (ts a r : List Tok) (st : List Br) (h : closeAngle st ts = some (a, r)) :
    Spec.split a ++ .gt :: Spec.split r = Spec.split ts := by
  have key : ∀ (st : List Br) (t : Tok) (ts a r : List Tok),
      (∀ a r, closeAngle st ts = some (a, r) → Spec.split a ++ .gt :: Spec.split r = Spec.split ts) →
      ((closeAngle st ts).map fun x => (t :: x.1, x.2)) = some (a, r) →
      Spec.split a ++ .gt :: Spec.split r = Spec.split (t :: ts) := by
    intro st t ts a r ih h
    simp only [Option.map_eq_some_iff, Prod.mk.injEq, Prod.exists] at h
    obtain ⟨a', r', h', rfl, rfl⟩ := h
    exact Spec.split_cons t _ _ _ (ih _ _ h')
  induction st, ts using closeAngle.induct generalizing a r with
  | case1 => simp [closeAngle] at h
  | case2 ts => simp only [closeAngle, Option.some.injEq, Prod.mk.injEq] at h; obtain ⟨rfl, rfl⟩ := h; simp [Spec.split]
  | case3 ts => simp only [closeAngle, Option.some.injEq, Prod.mk.injEq] at h; obtain ⟨rfl, rfl⟩ := h; simp [Spec.split]
  | case4 ts => simp only [closeAngle, Option.some.injEq, Prod.mk.injEq] at h; obtain ⟨rfl, rfl⟩ := h; simp [Spec.split]
  | _ => first
    | (simp only [closeAngle, reduceCtorEq] at h; done)
    | (rename_i ih; first
        | exact key _ _ _ _ _ ih (by simpa only [closeAngle] using h)
        | (rw [closeAngle] at h
           · exact key _ _ _ _ _ ih h
           all_goals simp_all))

/-- `(a<b>>c)>0` put into a template argument list. -/
example : Spec.split [.lpar, .word "a", .langle, .word "b", .shr, .word "c", .rpar] ++ .gt :: Spec.split [.word "0"] =
    Spec.split [.lpar, .word "a", .langle, .word "b", .shr, .word "c", .rpar, .gt, .word "0"] :=
  C111_argument_text _ _ _ [] (by decide)

/-- **C111, in parentheses.** A condition in parentheses may be any text whatever. -/
theorem C111_parenthesised (ev : List Tok → Option Value) (fmt : List Tok → Option (List Char)) (s : Src)
    (hp : s.Proper) (va : List Tok) :
    staticAssert ev fmt (.lpar :: (s.toks ++ .rpar :: .comma :: va)) =
      Spec.assert (ev (.lpar :: (s.toks ++ [.rpar]))) (fmt va) := by
  have := C111_static_assert_partial ev fmt (.par s .nil) ⟨hp, trivial⟩ (fun h => h) (fun h => h) va
  simpa [Src.toks] using this

/-- The text up to the first `>` or `>>` outside brackets. -/
theorem closeAngle_greater (s : Src) (hp : s.Proper) (h : s.Greater) (t : List Tok) :
    ∃ a r, closeAngle [] (s.toks ++ t) = some (a, r ++ t) := by
  induction s generalizing t with
  | nil => exact h.elim
  | greater r ih => exact ⟨[], r.toks, by simp [Src.toks, closeAngle]⟩
  | shift r ih => exact ⟨[], .gt :: r.toks, by simp [Src.toks, closeAngle]⟩
  | word s r ih | str s r ih =>
    obtain ⟨a, x, hx⟩ := ih hp h t
    exact ⟨_ :: a, x, by simp [Src.toks, closeAngle, hx]; rfl⟩
  | comma r ih =>
    obtain ⟨a, x, hx⟩ := ih hp h t
    exact ⟨_ :: a, x, by simp [Src.toks, closeAngle, hx]; rfl⟩
  | par i r ihi ihr =>
    obtain ⟨a, x, hx⟩ := ihr hp.2 h t
    refine ⟨.lpar :: (i.toks ++ .rpar :: a), x, ?_⟩
    simp only [Src.toks, List.cons_append, List.append_assoc, closeAngle,
      closeAngle_append i hp.1 [.par] (by simp [Ends]), hx, Option.map_some]
  | sq i r ihi ihr =>
    obtain ⟨a, x, hx⟩ := ihr hp.2 h t
    refine ⟨.lsq :: (i.toks ++ .rsq :: a), x, ?_⟩
    simp only [Src.toks, List.cons_append, List.append_assoc, closeAngle,
      closeAngle_append i hp.1 [.sq] (by simp [Ends]), hx, Option.map_some]
  | brace i r ihi ihr =>
    obtain ⟨a, x, hx⟩ := ihr hp.2 h t
    refine ⟨.lbrace :: (i.toks ++ .rbrace :: a), x, ?_⟩
    simp only [Src.toks, List.cons_append, List.append_assoc, closeAngle,
      closeAngle_append i hp.1 [.brace] (by simp [Ends]), hx, Option.map_some]
  | angle i r ihi ihr =>
    obtain ⟨a, x, hx⟩ := ihr hp.2.2 h t
    refine ⟨.langle :: (i.toks ++ .gt :: a), x, ?_⟩
    simp only [Src.toks, List.cons_append, List.append_assoc, closeAngle,
      closeAngle_append i hp.1 [.angle] (fun _ => hp.2.1), hx, Option.map_some]

/-- **C111 fails for comparisons with `>`.** A condition with a `>` or `>>` outside brackets does not compile, whatever its value and
the message: the `>` ends the list of template arguments into which the condition is put. -/
theorem C111_greater_violated (ev : List Tok → Option Value) (fmt : List Tok → Option (List Char)) (s : Src)
    (hp : s.Proper) (hg : s.Greater) (hc : ¬ s.Comma) (va : List Tok) :
    staticAssert ev fmt (s.toks ++ .comma :: va) = .error := by
  have h1 := firstArg_append s 0 (fun _ => hc) (.comma :: va)
  obtain ⟨a, r, h2⟩ := closeAngle_greater s hp hg [.gt, .lpar, .rpar]
  simp only [firstArg, List.append_nil] at h1
  simp only [staticAssert, h1, h2]
  split
  · rename_i heq
    simp only [Option.some.injEq, Prod.mk.injEq] at heq
    have := congrArg List.length heq.2
    simp at this
  · rfl

theorem Src.InnerComma.comma (s : Src) (h : s.InnerComma) : s.Comma := by
  induction s with
  | nil | comma => trivial
  | word s r ih | str s r ih | greater r ih | shift r ih => exact ih h
  | par i r _ ih => exact ih h
  | sq i r _ ih | brace i r _ ih | angle i r _ ih => exact h.imp_right ih

/-- Text cut off at a comma inside brackets that are not parentheses: the list of template arguments does not end where it should. -/
theorem cut (s : Src) (h : s.Comma) :
    ∃ a v, (∀ t, firstArg 0 (s.toks ++ t) = (a, some (v ++ t))) ∧
      (s.Proper → ∀ st, st ≠ [] → (Ends st → ¬ s.Greater) → closeAngle st (a ++ [.gt, .lpar, .rpar]) = none) ∧
      (s.Proper → s.InnerComma → ∀ x y, closeAngle [] (a ++ [.gt, .lpar, .rpar]) = some (x, y) → 3 ≤ y.length) := by
  induction s with
  | nil => exact h.elim
  | comma r ih =>
    refine ⟨[], r.toks, fun t => rfl, fun _ st hst _ => ?_, fun _ h => h.elim⟩
    match st, hst with
    | .angle :: [], _ | .angle :: .par :: st, _ | .angle :: .sq :: st, _ | .angle :: .brace :: st, _ | .angle :: .angle :: st, _
    | .par :: st, _ | .sq :: st, _ | .brace :: st, _ => simp [closeAngle]
  | word s r ih | str s r ih =>
    obtain ⟨a, v, h1, h2, h3⟩ := ih h
    refine ⟨_ :: a, v, fun t => by simp [Src.toks, firstArg, h1 t]; rfl, fun hp st hst hg => ?_, fun hp hi x y hx => ?_⟩
    · simp [closeAngle, h2 hp st hst hg]
    · simp only [List.cons_append, closeAngle, Option.map_eq_some_iff, Prod.mk.injEq] at hx
      obtain ⟨⟨p, q⟩, hq, _, rfl⟩ := hx
      exact h3 hp hi _ _ hq
  | greater r ih | shift r ih =>
    obtain ⟨a, v, h1, h2, h3⟩ := ih h
    refine ⟨_ :: a, v, fun t => by simp [Src.toks, firstArg, h1 t]; rfl, fun hp st hst hg => ?_, fun hp hi x y hx => ?_⟩
    · match st, hst, hg with
      | .angle :: _, _, hg => exact absurd trivial (hg (.inr rfl))
      | .par :: st, hst, _ | .sq :: st, hst, _ | .brace :: st, hst, _ =>
        simp [closeAngle, h2 hp _ hst (by simp [Ends])]
    · simp only [List.cons_append, closeAngle, Option.some.injEq, Prod.mk.injEq] at hx
      rw [← hx.2]
      simp
  | par i r ihi ihr =>
    obtain ⟨a, v, h1, h2, h3⟩ := ihr h
    refine ⟨.lpar :: (i.toks ++ .rpar :: a), v, fun t => ?_, fun hp st hst hg => ?_, fun hp hi x y hx => ?_⟩
    · simp only [Src.toks, List.cons_append, List.append_assoc, firstArg]
      rw [firstArg_append i 1 (by simp), firstArg]
      simp [h1]
    · simp only [List.cons_append, List.append_assoc, closeAngle,
        closeAngle_append i hp.1 (.par :: st) (by simp [Ends]), h2 hp.2 st hst hg, Option.map_none]
    · simp only [List.cons_append, List.append_assoc, closeAngle,
        closeAngle_append i hp.1 [.par] (by simp [Ends]), Option.map_map, Option.map_eq_some_iff] at hx
      obtain ⟨⟨p, q⟩, hq, hr⟩ := hx
      simp only [Function.comp_apply, Prod.mk.injEq] at hr
      obtain ⟨_, rfl⟩ := hr
      exact h3 hp.2 hi _ _ hq
  | sq i r ihi ihr =>
    by_cases hi : i.Comma
    · obtain ⟨a, v, h1, h2, h3⟩ := ihi hi
      refine ⟨.lsq :: a, v ++ .rsq :: r.toks, fun t => by simp [Src.toks, firstArg, h1], fun hp st hst hg => ?_, fun hp _ x y hx => ?_⟩
      · simp only [List.cons_append, closeAngle, h2 hp.1 (.sq :: st) (by simp) (by simp [Ends]), Option.map_none]
      · simp only [List.cons_append, closeAngle, h2 hp.1 [.sq] (by simp) (by simp [Ends]), Option.map_none] at hx
        cases hx
    · obtain ⟨a, v, h1, h2, h3⟩ := ihr (h.resolve_left hi)
      refine ⟨.lsq :: (i.toks ++ .rsq :: a), v, fun t => ?_, fun hp st hst hg => ?_, fun hp hic x y hx => ?_⟩
      · simp only [Src.toks, List.cons_append, List.append_assoc, firstArg]
        rw [firstArg_append i 0 (fun _ => hi), firstArg]
        · simp [h1]
        all_goals simp
      · simp only [List.cons_append, List.append_assoc, closeAngle,
          closeAngle_append i hp.1 (.sq :: st) (by simp [Ends]), h2 hp.2 st hst hg, Option.map_none]
      · simp only [List.cons_append, List.append_assoc, closeAngle,
          closeAngle_append i hp.1 [.sq] (by simp [Ends]), Option.map_map, Option.map_eq_some_iff] at hx
        obtain ⟨⟨p, q⟩, hq, hr⟩ := hx
        simp only [Function.comp_apply, Prod.mk.injEq] at hr
        obtain ⟨_, rfl⟩ := hr
        exact h3 hp.2 (hic.resolve_left hi) _ _ hq
  | brace i r ihi ihr =>
    by_cases hi : i.Comma
    · obtain ⟨a, v, h1, h2, h3⟩ := ihi hi
      refine ⟨.lbrace :: a, v ++ .rbrace :: r.toks, fun t => by simp [Src.toks, firstArg, h1], fun hp st hst hg => ?_, fun hp _ x y hx => ?_⟩
      · simp only [List.cons_append, closeAngle, h2 hp.1 (.brace :: st) (by simp) (by simp [Ends]), Option.map_none]
      · simp only [List.cons_append, closeAngle, h2 hp.1 [.brace] (by simp) (by simp [Ends]), Option.map_none] at hx
        cases hx
    · obtain ⟨a, v, h1, h2, h3⟩ := ihr (h.resolve_left hi)
      refine ⟨.lbrace :: (i.toks ++ .rbrace :: a), v, fun t => ?_, fun hp st hst hg => ?_, fun hp hic x y hx => ?_⟩
      · simp only [Src.toks, List.cons_append, List.append_assoc, firstArg]
        rw [firstArg_append i 0 (fun _ => hi), firstArg]
        · simp [h1]
        all_goals simp
      · simp only [List.cons_append, List.append_assoc, closeAngle,
          closeAngle_append i hp.1 (.brace :: st) (by simp [Ends]), h2 hp.2 st hst hg, Option.map_none]
      · simp only [List.cons_append, List.append_assoc, closeAngle,
          closeAngle_append i hp.1 [.brace] (by simp [Ends]), Option.map_map, Option.map_eq_some_iff] at hx
        obtain ⟨⟨p, q⟩, hq, hr⟩ := hx
        simp only [Function.comp_apply, Prod.mk.injEq] at hr
        obtain ⟨_, rfl⟩ := hr
        exact h3 hp.2 (hic.resolve_left hi) _ _ hq
  | angle i r ihi ihr =>
    by_cases hi : i.Comma
    · obtain ⟨a, v, h1, h2, h3⟩ := ihi hi
      refine ⟨.langle :: a, v ++ .gt :: r.toks, fun t => by simp [Src.toks, firstArg, h1], fun hp st hst hg => ?_, fun hp _ x y hx => ?_⟩
      · simp only [List.cons_append, closeAngle, h2 hp.1 (.angle :: st) (by simp) (fun _ => hp.2.1), Option.map_none]
      · simp only [List.cons_append, closeAngle, h2 hp.1 [.angle] (by simp) (fun _ => hp.2.1), Option.map_none] at hx
        cases hx
    · obtain ⟨a, v, h1, h2, h3⟩ := ihr (h.resolve_left hi)
      refine ⟨.langle :: (i.toks ++ .gt :: a), v, fun t => ?_, fun hp st hst hg => ?_, fun hp hic x y hx => ?_⟩
      · simp only [Src.toks, List.cons_append, List.append_assoc, firstArg]
        rw [firstArg_append i 0 (fun _ => hi), firstArg]
        · simp [h1]
        all_goals simp
      · simp only [List.cons_append, List.append_assoc, closeAngle,
          closeAngle_append i hp.1 (.angle :: st) (fun _ => hp.2.1), h2 hp.2.2 st hst hg, Option.map_none]
      · simp only [List.cons_append, List.append_assoc, closeAngle,
          closeAngle_append i hp.1 [.angle] (fun _ => hp.2.1), Option.map_map, Option.map_eq_some_iff] at hx
        obtain ⟨⟨p, q⟩, hq, hr⟩ := hx
        simp only [Function.comp_apply, Prod.mk.injEq] at hr
        obtain ⟨_, rfl⟩ := hr
        exact h3 hp.2.2 (hic.resolve_left hi) _ _ hq

/-- **C111 fails for commas.** A condition whose first comma outside parentheses is inside other brackets — in the template
arguments of `std::is_same_v<T, U>`, say, or in braces — does not compile, whatever its value and the message: the
preprocessor ends the condition there. -/
theorem C111_comma_violated (ev : List Tok → Option Value) (fmt : List Tok → Option (List Char)) (s : Src)
    (hp : s.Proper) (hc : s.InnerComma) (va : List Tok) :
    staticAssert ev fmt (s.toks ++ .comma :: va) = .error := by
  obtain ⟨a, v, h1, _, h3⟩ := cut s hc.comma
  simp only [staticAssert, h1]
  split
  · rename_i heq
    have := h3 hp hc _ _ heq
    simp at this
  · rfl

/-- **C111 fails for conditions that are not `bool`.** A number or pointer, which `static_assert` takes as true or false, does not compile. -/
theorem C111_not_bool_violated (ev : List Tok → Option Value) (fmt : List Tok → Option (List Char)) (s : Src)
    (hc : ¬ s.Comma) (hp : s.Proper) (h : ev s.toks = some .other) (va : List Tok) :
    staticAssert ev fmt (s.toks ++ .comma :: va) = .error := by
  by_cases hg : s.Greater
  · exact C111_greater_violated ev fmt s hp hg hc va
  · rw [C111_static_assert_partial ev fmt s hp hg hc va, h]
    rfl

/-- `sizeof(T) > 4` -/
def sizeofGreater : Src := .word "sizeof" (.par (.word "T" .nil) (.greater (.word "4" .nil)))
/-- `std::is_same_v<T, U>` -/
def isSame : Src := .word "std::is_same_v" (.angle (.word "T" (.comma (.word "U" .nil))) .nil)

/-- The hypotheses hold of `sizeof(T) > 4` and of `std::is_same_v<T, U>`, and with parentheses the first is decided by its value. -/
example : sizeofGreater.Proper ∧ sizeofGreater.Greater ∧ ¬ sizeofGreater.Comma ∧ isSame.Proper ∧ isSame.InnerComma ∧
    staticAssert (fun _ => some (.bool true)) (fun _ => some ['m']) (sizeofGreater.toks ++ [.comma, .str "m"]) = .error ∧
    staticAssert (fun _ => some (.bool false)) (fun _ => some ['m']) ((Src.par sizeofGreater .nil).toks ++ [.comma, .str "m"]) =
      .fails ['m'] := by
  refine ⟨by simp [sizeofGreater, Src.Proper], by simp [sizeofGreater, Src.Greater], by simp [sizeofGreater, Src.Comma],
    by simp [isSame, Src.Proper, Src.Greater], by simp [isSame, Src.InnerComma, Src.Comma], by decide, by decide⟩

/-! ## `STDX_PANIC` -/

/-- **C112, functions.** `panic(args...)` and `panic<S>(args...)` call the installed handler exactly once, with the arguments in order, each
an rvalue exactly if it was given as one, and with the message exactly if there is one. -/
theorem C112_panic (args : List (PArg α)) (s : List Char) :
    ∃ c d, panicFn args = [c] ∧ panicCt s args = [d] ∧ c.msg = none ∧ d.msg = some s ∧
      c.args.length = args.length ∧ d.args = c.args ∧
      ∀ (i : Nat) (a : PArg α), args[i]? = some a → ∃ rv, c.args[i]? = some (rv, a.val) ∧ (rv = true ↔ a.moved = true ∨ a.home = .temp) := by
  refine ⟨_, _, rfl, rfl, rfl, rfl, by simp, rfl, fun i a h => ⟨a.moved || a.home == .temp, by simp [h, PArg.seen], by simp⟩⟩

/-- **C112, the macro, partial.** For a message of string literals and arguments that are temporaries or variables of static storage duration, `STDX_PANIC` is
one call of the handler with the whole message.  Missing: local variables (`C112_local_violated`) and messages given
by other means (`C112_message_violated`). -/
theorem C112_macro_partial (ls : List String) (hl : ls ≠ []) (args : List (PArg α)) (h : ∀ a ∈ args, a.home ≠ .autoVar) :
    stdxPanic (ls.map .str) args = some [⟨some (ls.flatMap String.toList), args.map PArg.seen⟩] := by
  have : ∀ ls : List String, ls ≠ [] → pasteCts (ls.map .str) = some (ls.flatMap String.toList) := by
    intro ls
    induction ls with
    | nil => exact fun h => absurd rfl h
    | cons x xs ih =>
      intro _
      cases xs with
      | nil => simp [pasteCts]
      | cons y ys => rw [List.map_cons, List.map_cons, pasteCts, ← List.map_cons, ih (by simp)]; simp; simp
  simp only [stdxPanic, this ls hl]
  rw [if_pos (by simpa using h)]
  rfl

/-- **C112 fails for local variables.** No local variable, parameter or `this` of the function around it can be passed to `STDX_PANIC`: the
lambda does not capture. -/
theorem C112_local_violated (msg : List Tok) (args : List (PArg α)) (a : PArg α) (ha : a ∈ args) (h : a.home = .autoVar) :
    stdxPanic msg args = none := by
  unfold stdxPanic
  split
  · rfl
  · rw [if_neg]
    intro hall
    have := List.all_eq_true.mp hall a ha
    simp [h] at this

/-- **C112 fails for messages that are not string literals.** A message given by a macro, a constant or another expression, anywhere in it, does not compile. -/
theorem C112_message_violated (msg : List Tok) (t : Tok) (ht : t ∈ msg) (h : ∀ s, t ≠ .str s) (args : List (PArg α)) :
    stdxPanic msg args = none := by
  have : pasteCts msg = none := by
    induction msg with
    | nil => rfl
    | cons x xs ih =>
      rcases List.mem_cons.mp ht with rfl | ht'
      · cases t <;> first | rfl | exact absurd rfl (h _)
      · cases xs with
        | nil => cases ht'
        | cons y ys => cases x <;> simp [pasteCts, ih ht']
  simp [stdxPanic, this]

/-- The hypotheses hold of a message in two parts with a moved static variable and a temporary. -/
example : stdxPanic (["bad ", "node"].map .str) [⟨.staticVar, true, 1⟩, ⟨.temp, false, 2⟩, (⟨.staticVar, false, 3⟩ : PArg Nat)] =
    some [⟨some "bad node".toList, [(true, 1), (true, 2), (false, 3)]⟩] := by
  rw [C112_macro_partial _ (by simp) _ (by simp)]
  rfl

end Verif.Macro
