import Verif.Judge.Spec
import Verif.Unwind.PropsTuple

/-!
# C140, vectors, tuples and optionals
-/

namespace Verif.Judge

open Verif.Unwind Verif.Buf

variable {E W R Q T U α : Type}

/-! ## Vectors -/

/-- The answer "equal" of `!=`. -/
def unequal (ne : Fn E W (α × α) Bool) (p : α × α) : W → W × Except E Bool := fun w => ((ne p w).1, (ne p w).2.map fun d => !d)

/-- Once an answer settles a chain of `ask`s, no further step does anything. -/
theorem runs_settled {gs : List (W → W × Except E Bool)} {stop : Bool} {w w' : W} {r : Except E Bool}
    (h : Runs (gs.map (ask stop)) stop w w' r) : w' = w ∧ r = .ok stop := by
  induction gs with
  | nil => cases h; exact ⟨rfl, rfl⟩
  | cons g gs ih =>
    rw [List.map_cons] at h
    cases h with
    | next h hr =>
      unfold ask at h
      rw [if_pos rfl] at h
      cases h
      exact ih hr
    | stop h =>
      unfold ask at h
      rw [if_pos rfl] at h
      cases h

theorem vecEqLoop_runs (ne : Fn E W (α × α) Bool) : ∀ (xs ys px py tx ty : List α) (w w' : W) (r : Except E Bool),
    px.length = py.length → xs.length = ys.length →
    Runs (((xs.zip ys).map (unequal ne)).map (ask false)) true w w' r →
    vecEqLoop ne (px ++ (xs ++ tx)) (py ++ (ys ++ ty)) px.length xs.length w = Res.of w' r := by
  intro xs
  induction xs with
  | nil =>
    intro ys px py tx ty w w' r _ hl h
    cases h
    rfl
  | cons x xs ih =>
    intro ys px py tx ty w w' r hp hl h
    cases ys with
    | nil => cases hl
    | cons y ys =>
      rw [List.length_cons, vecEqLoop]
      have h1 : arrGet (px ++ (x :: xs ++ tx)) px.length = .ok x := by
        rw [arrGet_ok]; simp
      have h2 : arrGet (py ++ (y :: ys ++ ty)) px.length = .ok y := by
        rw [arrGet_ok, hp]; simp
      rw [h1, h2]
      simp only [need]
      rw [call_eq]
      rw [List.zip_cons_cons, List.map_cons, List.map_cons] at h
      have step : ∀ c w1, ne (x, y) w = (w1, .ok c) → Runs (((xs.zip ys).map (unequal ne)).map (ask false)) (!c) w1 w' r →
          (if c then Res.ok w1 false else vecEqLoop ne (px ++ (x :: xs ++ tx)) (py ++ (y :: ys ++ ty)) (px.length + 1) xs.length w1) =
            Res.of w' r := by
        intro c w1 hc hr
        cases c with
        | true =>
          obtain ⟨rfl, rfl⟩ := runs_settled hr
          rfl
        | false =>
          have := ih ys (px ++ [x]) (py ++ [y]) tx ty w1 w' r (by simp [hp]) (by simpa using hl) hr
          simpa using this
      cases hne : ne (x, y) w with
      | mk w1 d =>
        cases d with
        | ok c =>
          cases h with
          | next h hr =>
            simp only [ask, unequal, hne, Bool.true_eq_false, if_false, Except.map] at h
            cases h
            exact step c _ hne hr
          | stop h =>
            simp only [ask, unequal, hne, Bool.true_eq_false, if_false, Except.map] at h
            cases h
        | error e =>
          cases h with
          | next h hr =>
            simp only [ask, unequal, hne, Bool.true_eq_false, if_false, Except.map] at h
            cases h
          | stop h =>
            simp only [ask, unequal, hne, Bool.true_eq_false, if_false, Except.map] at h
            cases h
            rfl

/-- **C140, cx_vector `==`.** Vectors of different sizes are different, and nothing is compared; otherwise elements are compared in order until
two differ or a comparison throws. -/
theorem C140_vector_equal (ne : Fn E W (α × α) Bool) (xs ys tx ty : List α) (w : W) :
    (xs.length ≠ ys.length → vecEq ne ⟨xs ++ tx, xs.length⟩ ⟨ys ++ ty, ys.length⟩ w = .ok w false) ∧
    (xs.length = ys.length → ∀ w' r, Runs ((xs.zip ys).map fun p => ask false (unequal ne p)) true w w' r →
      vecEq ne ⟨xs ++ tx, xs.length⟩ ⟨ys ++ ty, ys.length⟩ w = Res.of w' r) := by
  constructor
  · intro h
    unfold vecEq
    exact if_pos h
  · intro h w' r hr
    unfold vecEq
    rw [if_neg (by simpa using h)]
    exact vecEqLoop_runs ne xs ys [] [] tx ty w w' r rfl h (by rw [List.map_map]; exact hr)

/-! ## Tuples -/

/-- **C140, tuple `==`.** Elements are compared in index order until two differ or a comparison throws. -/
theorem C140_tuple_equal (eqs : List (W → W × Except E Bool)) (w w' : W) (r : Except E Bool)
    (h : Runs (eqs.map (ask false)) true w w' r) : tupleEq eqs w = Res.of w' r := by
  cases eqs with
  | nil => cases h; rfl
  | cons e es =>
    rw [List.map_cons] at h
    unfold tupleEq
    have lift : ∀ (b : Bool) (w1 : W), call (fun _ => e) () w = .ok w1 b → Runs (es.map (ask false)) b w1 w' r →
        shortFold false (fun w => call (fun _ => e) () w) (es.map fun e w => call (fun _ => e) () w) w = Res.of w' r := by
      intro b w1 h1 hr
      have e1 : es.map (ask false) = (List.range es.length).map fun i => ask false (es.getD i fun w => (w, .ok true)) := by
        apply List.ext_getElem
        · simp
        · intro i h1 h2
          simp at h1 h2 ⊢
          rw [List.getElem?_eq_getElem h1]; rfl
      have e2 : (es.map fun e w => call (fun _ => e) () w) =
          (List.range es.length).map fun i => fun w => call (fun _ : Unit => es.getD i fun w => (w, .ok true)) () w := by
        apply List.ext_getElem
        · simp
        · intro i h1 h2
          simp at h1 h2 ⊢
          funext w
          rw [List.getElem?_eq_getElem h1]; rfl
      rw [e2]
      rw [e1] at hr
      exact shortFold_runs (stop := false) (f := fun i w => call (fun _ : Unit => es.getD i fun w => (w, .ok true)) () w)
        (g := fun i => es.getD i fun w => (w, .ok true)) _ _ b w w1 w' r (fun i _ w => call_eq _ _ _) h1 hr
    cases h with
    | next h hr =>
      simp only [ask, Bool.true_eq_false, if_false] at h
      exact lift _ _ (by rw [call_eq, h]; rfl) hr
    | stop h =>
      simp only [ask, Bool.true_eq_false, if_false] at h
      exact shortFold_threw _ _ (by rw [call_eq, h]; rfl)

/-- **C140, one_of `==`.** Elements are compared in order until one is equal or a comparison throws. -/
theorem C140_one_of_equal (eqs : List (W → W × Except E Bool)) (w w' : W) (r : Except E Bool)
    (h : Runs (eqs.map (ask true)) false w w' r) : oneOfEq eqs w = Res.of w' r := by
  induction eqs generalizing w with
  | nil => cases h; rfl
  | cons e es ih =>
    rw [List.map_cons] at h
    cases es with
    | nil =>
      unfold oneOfEq
      rw [call_eq]
      cases h with
      | next h hr =>
        simp only [ask, Bool.false_eq_true, if_false] at h
        cases hr
        rw [h]
      | stop h =>
        simp only [ask, Bool.false_eq_true, if_false] at h
        rw [h]
    | cons e' es =>
      unfold oneOfEq
      rw [call_eq]
      cases h with
      | next h hr =>
        simp only [ask, Bool.false_eq_true, if_false] at h
        rw [h]
        simp only [of_ok, andThen_ok]
        rename_i b _
        cases b with
        | true =>
          obtain ⟨rfl, rfl⟩ := runs_settled hr
          rfl
        | false => exact ih _ hr
      | stop h =>
        simp only [ask, Bool.false_eq_true, if_false] at h
        rw [h]; rfl

/-- The comparison of two elements, if those before it have been equal. -/
def settle (c : W → W × Except E Ordering) : Act E W Ordering := fun r w => if r = .eq then c w else (w, .ok r)

theorem runs_decided {cs : List (W → W × Except E Ordering)} {o : Ordering} (ho : o ≠ .eq) {w w' : W} {r : Except E Ordering}
    (h : Runs (cs.map settle) o w w' r) : w' = w ∧ r = .ok o := by
  induction cs with
  | nil => cases h; exact ⟨rfl, rfl⟩
  | cons c cs ih =>
    rw [List.map_cons] at h
    cases h with
    | next h hr =>
      unfold settle at h
      rw [if_neg ho] at h
      cases h
      exact ih hr
    | stop h =>
      unfold settle at h
      rw [if_neg ho] at h
      cases h

theorem compareRest_runs (cs : List (W → W × Except E Ordering)) : ∀ (w w' : W) (r : Except E Ordering),
    Runs (cs.map settle) .eq w w' r → compareRest cs .eq w = Res.of w' r := by
  induction cs with
  | nil => intro w w' r h; cases h; rfl
  | cons c cs ih =>
    intro w w' r h
    rw [List.map_cons] at h
    unfold compareRest
    rw [call_eq]
    cases h with
    | next h hr =>
      simp only [settle, if_true] at h
      rw [h]
      simp only [of_ok, andThen_ok]
      rename_i o _
      by_cases ho : o = .eq
      · subst ho
        exact ih _ _ _ hr
      · obtain ⟨rfl, rfl⟩ := runs_decided ho hr
        rw [if_pos ho]; rfl
    | stop h =>
      simp only [settle, if_true] at h
      rw [h]; rfl

/-- **C140, tuple `<=>`.** The first elements are compared, and then again, and then the others in order, until two differ or a comparison
throws: the first comparison is thrown away. -/
theorem C140_tuple_compare (c : W → W × Except E Ordering) (cs : List (W → W × Except E Ordering)) (w w' : W) (r : Except E Ordering)
    (h : Runs ((fun _ w => c w) :: (fun _ w => c w) :: cs.map settle) .eq w w' r) :
    tupleCompare (c :: cs) w = Res.of w' r ∧ tupleCompare ([] : List (W → W × Except E Ordering)) w = .ok w .eq := by
  refine ⟨?_, rfl⟩
  unfold tupleCompare
  simp only
  rw [call_eq]
  cases h with
  | next h hr =>
    rw [show c _ = _ from h]
    simp only [of_ok, andThen_ok]
    unfold compareRest
    rw [call_eq]
    cases hr with
    | next h hr =>
      rw [show c _ = _ from h]
      simp only [of_ok, andThen_ok]
      rename_i o _
      by_cases ho : o = .eq
      · subst ho
        exact compareRest_runs cs _ _ _ hr
      · obtain ⟨rfl, rfl⟩ := runs_decided ho hr
        rw [if_pos ho]; rfl
    | stop h => rw [show c _ = _ from h]; rfl
  | stop h => rw [show c _ = _ from h]; rfl

/-! ## Optionals -/

/-- **C140, optional, violated.** An exception that `==` of the value type throws when an optional is asked whether it has a value ends
the program: nothing that asks passes it on. -/
theorem C140_optional_terminates_violated (V : OVal E W T) (o d b : T) (ts : U) (f : Fn E (T × W) Unit U) (g : Fn E (T × W) Unit T) (w w' : W)
    (e : E) (h : V.eq (o, V.ts) w = (w', .error e)) :
    hasValue V o w = .terminated ∧ valueOr V o d w = .terminated ∧ optTransform V ts f (o, w) = .terminated ∧
    optAndThen V ts f (o, w) = .terminated ∧ optOrElse V g (o, w) = .terminated ∧ optLt V o b w = .terminated := by
  have hv : hasValue V o w = .terminated := by
    unfold hasValue
    rw [call_eq, h]; rfl
  refine ⟨hv, ?_, ?_, ?_, ?_, ?_⟩
  · unfold valueOr; rw [hv]; rfl
  · unfold optTransform; rw [hv]; rfl
  · unfold optAndThen; rw [hv]; rfl
  · unfold optOrElse; rw [hv]; rfl
  · unfold optLt; rw [hv]; rfl

/-- **C140, optional, `==`.** This comparison does pass exceptions on. -/
theorem C140_optional_equal (V : OVal E W T) (a b : T) (w : W) : optEq V a b w = Res.of (V.eq (a, b) w).1 (V.eq (a, b) w).2 := by
  unfold optEq
  exact call_eq _ _ _

/-- **C140, optional.** If the comparison with the tombstone returns, the function is called once on the value or not at all, in the world
the comparison has left; what it throws is passed on, and the optional is what the function has left it. -/
theorem C140_optional_calls_partial [BEq T] (V : OVal E W T) (hT : Truthful V.eq) (o d : T) (ts : U) (f : Fn E (T × W) Unit U)
    (g : Fn E (T × W) Unit T) (w w1 : W) (c : Bool) (h : V.eq (o, V.ts) w = (w1, .ok c)) :
    hasValue V o w = .ok w1 (!(o == V.ts)) ∧ valueOr V o d w = .ok w1 (if o == V.ts then d else o) ∧
    optTransform V ts f (o, w) = (if o == V.ts then .ok (o, w1) ts else Res.of (f () (o, w1)).1 (f () (o, w1)).2) ∧
    optAndThen V ts f (o, w) = (if o == V.ts then .ok (o, w1) ts else Res.of (f () (o, w1)).1 (f () (o, w1)).2) ∧
    optOrElse V g (o, w) = (if o == V.ts then Res.of (g () (o, w1)).1 (g () (o, w1)).2 else .ok (o, w1) o) := by
  have hc := hT _ _ _ _ _ h
  subst hc
  have hv : hasValue V o w = .ok w1 (!(o == V.ts)) := by
    unfold hasValue
    rw [call_eq, h]; rfl
  refine ⟨hv, ?_, ?_, ?_, ?_⟩
  · unfold valueOr; rw [hv, andThen_ok]
    cases o == V.ts <;> rfl
  · unfold optTransform; rw [hv]
    simp only [beside, andThen_ok]
    cases o == V.ts
    · simp only [Bool.not_false, if_true, Bool.false_eq_true, if_false]; exact call_eq _ _ _
    · rfl
  · unfold optAndThen; rw [hv]
    simp only [beside, andThen_ok]
    cases o == V.ts
    · simp only [Bool.not_false, if_true, Bool.false_eq_true, if_false]; exact call_eq _ _ _
    · rfl
  · unfold optOrElse; rw [hv]
    simp only [beside, andThen_ok]
    cases o == V.ts
    · rfl
    · simp only [Bool.not_true, if_true, Bool.false_eq_true, if_false]; exact call_eq _ _ _

/-- **C140, optional, `<`.** If `==` always returns, `<` of the values is asked once, only if both are there; what it throws is passed on. -/
theorem C140_optional_less_partial [BEq T] (V : OVal E W T) (hT : Truthful V.eq) (hq : ∀ x w, ∃ w' c, V.eq x w = (w', .ok c)) (a b : T) (w : W) :
    if a == V.ts then ∃ w', optLt V a b w = .ok w' (!(b == V.ts))
    else if b == V.ts then ∃ w', optLt V a b w = .ok w' false
    else ∃ w1, optLt V a b w = Res.of (V.lt (a, b) w1).1 (V.lt (a, b) w1).2 := by
  have hv : ∀ o w, ∃ w', hasValue V o w = .ok w' (!(o == V.ts)) := by
    intro o w
    obtain ⟨w', c, h⟩ := hq (o, V.ts) w
    refine ⟨w', ?_⟩
    have hc := hT _ _ _ _ _ h
    subst hc
    unfold hasValue
    rw [call_eq, h]; rfl
  obtain ⟨w1, h1⟩ := hv a w
  unfold optLt
  cases ha : a == V.ts with
  | true =>
    rw [ha] at h1
    obtain ⟨w2, h2⟩ := hv a w1
    obtain ⟨w3, h3⟩ := hv b w2
    rw [ha] at h2
    refine ⟨w3, ?_⟩
    rw [h1]
    simp only [andThen_ok, Bool.not_true, Bool.false_eq_true, if_false]
    rw [h2]
    simp only [andThen_ok, Bool.not_true, Bool.not_false, if_true]
    exact h3
  | false =>
    rw [ha] at h1
    obtain ⟨w2, h2⟩ := hv b w1
    rw [h1]
    simp only [andThen_ok, Bool.not_false, if_true, Bool.false_eq_true, if_false]
    rw [h2]
    cases hb : b == V.ts with
    | true =>
      obtain ⟨w3, h3⟩ := hv a w2
      rw [ha] at h3
      refine ⟨w3, ?_⟩
      simp only [andThen_ok, Bool.not_true, Bool.false_eq_true, if_false]
      rw [h3]; rfl
    | false =>
      refine ⟨w2, ?_⟩
      simp only [andThen_ok, Bool.not_false, if_true]
      exact call_eq _ _ _

/-! ## Cases that meet the hypotheses -/

section examples

/-- Throws at the third comparison; the world counts them. -/
private def third : Fn String Nat (Nat × Nat) Bool := fun x w => (w + 1, if w = 2 then .error "third" else .ok (x.1 != x.2))

example : Runs (([1, 2, 3, 4].zip [1, 2, 3, 5]).map fun p => ask false (unequal third p)) true 0 3 (.error "third") :=
  .next rfl (.next rfl (.stop rfl))

example : vecEq third ⟨[1, 2, 3, 4, 0], 4⟩ ⟨[1, 2, 3, 5, 0], 4⟩ 0 = .threw 3 "third" := rfl
example : vecEq third ⟨[1, 7, 3, 4, 0], 4⟩ ⟨[1, 2, 3, 5, 0], 4⟩ 0 = .ok 2 false := rfl

private def cmp (o : Ordering) : Nat → Nat × Except String Ordering := fun w => (w + 1, if w = 3 then .error "fourth" else .ok o)

example : tupleCompare [cmp .eq, cmp .eq, cmp .eq, cmp .lt] 0 = .threw 4 "fourth" := rfl
example : Runs ((fun _ w => cmp .eq w) :: (fun _ w => cmp .eq w) :: [cmp .lt, cmp .gt].map settle) .eq 0 3 (.ok .lt) :=
  .next rfl (.next rfl (.next rfl (.next rfl (.done _ _))))

private def V : OVal String Nat Nat :=
  ⟨fun x w => (w + 1, if w = 1 then .error "eq" else .ok (x.1 == x.2)), fun x w => (w + 1, .ok (x.1 < x.2)), 0⟩

example : optLt V 4 5 0 = .terminated := rfl
example : optLt V 4 5 2 = .ok 5 true := rfl
example : Truthful V.eq := by
  intro x y w w' c h
  simp only [V] at h
  split at h <;> cases h
  rfl

end examples

end Verif.Judge
