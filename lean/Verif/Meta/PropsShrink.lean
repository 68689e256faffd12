import Verif.Meta.Shrink

/-!
# `shrink` and `expand` of values (C164)
-/

namespace Verif.Meta

/-- The second type is the first one without `const`. -/
inductive ButConst : Ty → Ty → Prop
  | cls (c : Cls) (k v : Bool) : ButConst (.cls c ⟨k, v⟩) (.cls c ⟨false, v⟩)
  | shrunk (t : Ty) (k v : Bool) : ButConst (.shrunk t ⟨k, v⟩) (.shrunk t ⟨false, v⟩)

/-- Objects exist: they are not of a reference or function type or `void`, and those of classes without state have no content. -/
def Exists (C : Classes) (x : Arg) : Prop :=
  match x.ty with
  | .void _ | .func _ _ | .lref _ | .rref _ => False
  | .cls c _ => C.stateless c = true → x.content = []
  | .shrunk _ _ => x.content = []
  | _ => True

/-- An array. -/
def IsArray (t : Ty) : Prop := ∃ e n cv, t = .array e n cv

/-- **C164, by value.** If `expand(shrink(x))` compiles, it is a new object of the type of `x` but for `const` and has the same content.
Missing: arrays, see `C164_array_violated`. -/
theorem C164_value_partial (C : Classes) (x : Arg) (hx : Exists C x) (ha : ¬ IsArray x.ty) {r : Expanded} (hr : expandV C (shrinkV x) = some r) :
    ∃ t, r = .new t x.content ∧ ButConst x.ty t := by
  obtain ⟨ty, lv, ob, content⟩ := x
  cases ty with
  | void => exact absurd hx id
  | func => exact absurd hx id
  | lref => exact absurd hx id
  | rref => exact absurd hx id
  | array e n cv => exact absurd ⟨e, n, cv, rfl⟩ ha
  | scalar i cv => simp [expandV, shrinkV, shrinkT, Ty.dropConst, Ty.returnable, make, CV.empty] at hr
  | shrunk t cv =>
    simp only [Exists] at hx
    subst hx
    simp only [expandV, shrinkV, shrinkT, Ty.dropConst, Ty.returnable, CV.empty, Bool.not_false, Bool.and_self, if_true, make, Option.map_some,
      Option.some.injEq, Ty.callType] at hr
    exact ⟨_, hr.symm, .shrunk t cv.const cv.volatile⟩
  | cls c cv =>
    simp only [Exists] at hx
    simp only [expandV, shrinkV, shrinkT, Ty.dropConst, Ty.returnable, CV.empty, Bool.not_false, Bool.and_self, if_true, make, Ty.callType] at hr
    split at hr
    · rename_i h
      simp only [Bool.and_eq_true, Bool.not_eq_true'] at h
      rw [C.made_stateless c h.2.2] at hr
      simp only [Option.map_some, Option.some.injEq] at hr
      exact ⟨_, by rw [hx h.2.2]; exact hr.symm, .cls c cv.const cv.volatile⟩
    · cases hr

/-- **C164, what compiles.** `expand(shrink(x))` compiles for an object `x` of a class exactly if the class is no union, has no state, and has a default
constructor; it does not for scalars, which have a state. -/
theorem C164_compiles (C : Classes) (x : Arg) :
    (∀ c cv, x.ty = .cls c cv → ((expandV C (shrinkV x)).isSome ↔ c.union = false ∧ C.stateless c = true ∧ C.defaults c = true)) ∧
    (∀ i cv, x.ty = .scalar i cv → expandV C (shrinkV x) = none) := by
  obtain ⟨ty, lv, ob, content⟩ := x
  refine ⟨fun c cv h => ?_, fun i cv h => ?_⟩ <;> simp only at h <;> subst h
  · simp only [expandV, shrinkV, shrinkT, Ty.dropConst, Ty.returnable, CV.empty, Bool.not_false, Bool.and_self, if_true, make]
    cases C.defaults c <;> cases c.union <;> cases C.stateless c <;> simp
  · simp [expandV, shrinkV, shrinkT, Ty.dropConst, Ty.returnable, make, CV.empty]

/-- **C164, arrays.** For an array `expand(shrink(x))` compiles, and is not an array: it is what `shrink` has made. -/
theorem C164_array_violated (C : Classes) (x : Arg) (ha : IsArray x.ty) :
    ∃ t, expandV C (shrinkV x) = some (.new (shrinkT t) []) ∧ IsArray t ∧ ¬ IsArray (shrinkT t) := by
  obtain ⟨ty, lv, ob, content⟩ := x
  obtain ⟨e, n, cv, h⟩ := ha
  simp only at h
  subst h
  refine ⟨.array e n ⟨false, cv.volatile⟩, rfl, ⟨_, _, _, rfl⟩, ?_⟩
  rintro ⟨_, _, _, h⟩
  cases h

/-- **C164, not shrunk.** What is not shrunk `expand` leaves alone: an lvalue is returned as a reference to the same object, with the
qualification it has, anything else of a class or scalar type as a new object with its content. -/
theorem C164_not_shrunk (C : Classes) (x : Arg) (h : ∀ t cv, x.ty ≠ .shrunk t cv) :
    (x.lvalue = true → expandV C x = some (.ref x.object x.ty)) ∧
    (x.lvalue = false → ∀ c cv, x.ty = .cls c cv → expandV C x = some (.new x.ty x.content)) ∧
    (x.lvalue = false → ∀ i cv, x.ty = .scalar i cv → expandV C x = some (.new (.scalar i ⟨false, false⟩) x.content)) := by
  obtain ⟨ty, lv, ob, content⟩ := x
  refine ⟨fun hl => ?_, fun hl c cv hc => ?_, fun hl c cv hc => ?_⟩
  · simp only at hl
    subst hl
    cases ty <;> first | rfl | exact absurd rfl (h _ _)
  · simp only at hl hc
    subst hl hc
    rfl
  · simp only at hl hc
    subst hl hc
    rfl

/-! ## Examples -/

/-- Class 0 has no state and class 1 has two numbers. -/
def sample : Classes := ⟨fun _ => true, fun c => c.id == 0, fun c => if c.id == 0 then [] else [0, 0], fun c h => by simp_all⟩

example : Exists sample ⟨.cls ⟨0, false, false, false, none⟩ ⟨true, false⟩, true, 7, []⟩ ∧
    expandV sample (shrinkV ⟨.cls ⟨0, false, false, false, none⟩ ⟨true, false⟩, true, 7, []⟩) =
      some (.new (.cls ⟨0, false, false, false, none⟩ ⟨false, false⟩) []) := ⟨fun _ => rfl, rfl⟩

example : expandV sample (shrinkV ⟨.cls ⟨1, false, false, false, none⟩ ⟨true, false⟩, true, 7, [4, 2]⟩) = none := rfl

example : expandV sample ⟨.cls ⟨1, false, false, false, none⟩ ⟨true, false⟩, true, 7, [4, 2]⟩ =
    some (.ref 7 (.cls ⟨1, false, false, false, none⟩ ⟨true, false⟩)) := (C164_not_shrunk sample _ (by simp)).1 rfl

end Verif.Meta
