import Verif.Optional.Model
import Mathlib.Tactic.NormNum

/-!
# `optional` (C42, C43, C44)

The specification is Lean's `Option`.
-/

namespace Verif.Opt

variable {T U R σ : Type}

/-- What a user sees: nothing, or the contained value. -/
def view (V : Val T) (o : Optional T) : Option T := if hasValue V o then some (value o) else none

/-- A value other than the tombstone. -/
def Val.Proper (V : Val T) (v : T) : Prop := V.eq v V.ts = false

/-- The tombstone compares equal to itself. -/
def Val.Reflexive (V : Val T) : Prop := V.eq V.ts V.ts = true

theorem view_proper {V : Val T} {v : T} (h : V.Proper v) : view V (ofValue v) = some v := by
  have h' : V.eq v V.ts = false := h
  simp [view, hasValue, ofValue, value, h']

theorem hasValue_ofValue (V : Val T) (v : T) : hasValue V (ofValue v) = !V.eq v V.ts := rfl

theorem view_empty {V : Val T} (h : V.Reflexive) : view V (empty V) = none := by
  have h' : V.eq V.ts V.ts = true := h
  simp [view, hasValue, empty, h']

theorem view_none_iff {V : Val T} {o : Optional T} : view V o = none ↔ hasValue V o = false := by
  unfold view; split <;> simp_all

/-- What storing `v` means: nothing is contained if it is the tombstone. -/
def stored (V : Val T) (v : T) : Option T := if V.eq v V.ts then none else some v

/-- The specified state after one mutation. -/
def specStep (V : Val T) : Option T → Op T → Option T
  | _, .assign v | _, .emplace v => stored V v
  | _, .reset | _, .assignNull => none
  | st, .modify g => st.bind fun v => stored V (g v)

/-- Contained values are changed through a reference only while there is one. -/
def Admissible (V : Val T) : Option T → List (Op T) → Prop
  | _, [] => True
  | st, op :: ops => (∀ g, op = .modify g → st.isSome) ∧ Admissible V (specStep V st op) ops

theorem view_stored (V : Val T) (v : T) : view V (ofValue v) = stored V v := by
  unfold view hasValue ofValue stored value
  cases V.eq v V.ts <;> rfl

/-- **C42, histories.** From any state and after any history of assignments, `emplace`, `reset` and changes of
the contained value through a reference, `has_value()` and the contained value are what the last mutation
gave, where storing the tombstone counts as emptying. -/
theorem C42_optional_history_partial {V : Val T} (hts : V.Reflexive) (ops : List (Op T)) (o : Optional T)
    (hadm : Admissible V (view V o) ops) :
    view V (ops.foldl (fun o op => op.apply V o) o) = ops.foldl (specStep V) (view V o) := by
  induction ops generalizing o with
  | nil => rfl
  | cons op ops ih =>
    obtain ⟨h1, h2⟩ := hadm
    have key : view V (op.apply V o) = specStep V (view V o) op := by
      cases op with
      | assign v => exact view_stored V v
      | emplace v => exact view_stored V v
      | reset => exact view_empty hts
      | assignNull => exact view_empty hts
      | modify g =>
        cases h : hasValue V o
        · have := h1 g rfl
          rw [view_none_iff.mpr h] at this; cases this
        · have hv : view V o = some o.val := by simp [view, h, value]
          rw [hv]
          exact view_stored V (g o.val)
    rw [List.foldl_cons, List.foldl_cons, ih _ (key ▸ h2), key]

/-- **C42, values other than the tombstone.** With no tombstone stored, the outcome of a history is the value
the last mutation supplied, or nothing after `reset`: exactly `std::optional`. -/
theorem C42_optional_history_proper {V : Val T} (hts : V.Reflexive) (ops : List (Op T)) (o : Optional T)
    (op : Op T) (hadm : Admissible V (view V o) (ops ++ [op])) :
    let r := view V ((ops ++ [op]).foldl (fun o op => op.apply V o) o)
    (∀ v, V.Proper v → op = .assign v ∨ op = .emplace v → r = some v) ∧
    (op = .reset ∨ op = .assignNull → r = none) ∧
    (∀ g, op = .modify g → ∃ v, view V (ops.foldl (fun o op => op.apply V o) o) = some v ∧
      (V.Proper (g v) → r = some (g v))) := by
  intro r
  have hr : r = specStep V (view V (ops.foldl (fun o op => op.apply V o) o)) op ∧
      ∀ g, op = .modify g → (view V (ops.foldl (fun o op => op.apply V o) o)).isSome := by
    have hpre : ∀ (ops : List (Op T)) (st : Option T), Admissible V st (ops ++ [op]) → Admissible V st ops ∧
        ∀ g, op = .modify g → (ops.foldl (specStep V) st).isSome := by
      intro ops
      induction ops with
      | nil => exact fun st h => ⟨trivial, h.1⟩
      | cons x xs ih => exact fun st h => ⟨⟨h.1, (ih _ h.2).1⟩, (ih _ h.2).2⟩
    have h1 := C42_optional_history_partial hts ops o (hpre ops _ hadm).1
    refine ⟨?_, ?_⟩
    · show view V _ = _
      rw [C42_optional_history_partial hts _ o hadm, List.foldl_append, h1]; rfl
    · rw [h1]; exact (hpre ops _ hadm).2
  refine ⟨fun v hv hop => ?_, fun hop => ?_, fun g hop => ?_⟩
  · have hv' : V.eq v V.ts = false := hv
    rw [hr.1]
    rcases hop with rfl | rfl <;> simp [specStep, stored, hv']
  · rw [hr.1]
    rcases hop with rfl | rfl <;> rfl
  · obtain ⟨v, hv⟩ := Option.isSome_iff_exists.mp (hr.2 g hop)
    refine ⟨v, hv, fun hp => ?_⟩
    have hp' : V.eq (g v) V.ts = false := hp
    rw [hr.1, hv, hop]
    simp [specStep, stored, hp']

/-- **C42, constructors.** Default and `nullopt` construction give a disengaged optional, construction from
a value other than the tombstone an engaged one. -/
theorem C42_optional_construct {V : Val T} (hts : V.Reflexive) :
    view V (empty V) = none ∧ ∀ v, V.Proper v → view V (ofValue v) = some v :=
  ⟨view_empty hts, fun _ h => view_proper h⟩

/-- **C42, `value_or`.** -/
theorem C42_optional_value_or (V : Val T) (o : Optional T) (d : T) : valueOr V o d = (view V o).getD d := by
  unfold valueOr view value; split <;> rfl

/-- **C42, `transform`.** The callable is called once with the contained value if there is one, not called
otherwise, and the result holds what it returned unless that is the tombstone of the result type. -/
theorem C42_optional_transform {V : Val T} {W : Val U} (hW : W.Reflexive) (o : Optional T) (f : T → St σ U) (s : σ) :
    match view V o with
    | none => view W (transform V W o f s).1 = none ∧ (transform V W o f s).2 = s
    | some v => (transform V W o f s).2 = (f v s).2 ∧
      (W.Proper (f v s).1 → view W (transform V W o f s).1 = some (f v s).1) := by
  unfold transform
  cases h : hasValue V o
  · have : view V o = none := view_none_iff.mpr h
    rw [this]
    simp [view_empty hW]
  · have : view V o = some o.val := by simp [view, h, value]
    rw [this]
    exact ⟨rfl, fun hp => view_proper hp⟩

/-- **C42, functor laws.** `transform` with the identity changes nothing, provided the contained value is not
the tombstone of the result, which is the default one of the type whatever tombstone the optional itself has;
two transforms are the transform with the composition, provided the first callable does not return the
tombstone. -/
theorem C42_optional_functor_partial {V D : Val T} {W : Val U} {X : Val R} (hD : D.Reflexive) (hW : W.Reflexive)
    (o : Optional T) (f : T → St σ U) (g : U → St σ R) (s : σ)
    (hd : ∀ v, view V o = some v → D.Proper v)
    (hf : ∀ v, view V o = some v → W.Proper (f v s).1) :
    view D (transform V D o (fun v s => (v, s)) s).1 = view V o ∧ (transform V D o (fun v s => (v, s)) s).2 = s ∧
    let r1 := transform V W o f s
    let r2 := transform W X r1.1 g r1.2
    let r := transform V X o (fun v s => let r := f v s; g r.1 r.2) s
    view X r2.1 = view X r.1 ∧ r2.2 = r.2 := by
  cases h : hasValue V o
  · have h1 : transform V W o f s = (empty W, s) := by simp [transform, h]
    have h2 : hasValue W (empty W) = false := view_none_iff.mp (view_empty hW)
    have h3 : view V o = none := view_none_iff.mpr h
    refine ⟨?_, ?_, ?_⟩
    · simp [transform, h, h3, view_empty hD]
    · simp [transform, h]
    · simp [transform, h, h2]
  · have hv : view V o = some o.val := by simp [view, h, value]
    have hp : W.eq (f o.val s).1 W.ts = false := hf _ hv
    refine ⟨?_, ?_, ?_⟩
    · rw [hv]
      simp only [transform, h, ofCall, if_true]
      exact view_proper (hd _ hv)
    · simp [transform, h, ofCall]
    · have h4 : hasValue W ⟨(f o.val s).1⟩ = true := by simp [hasValue, hp]
      simp [transform, h, ofCall, h4]

/-- **C42, monad laws.** Binding a value to `f` is `f` of the value; binding to the constructor changes
nothing; binding is associative. -/
theorem C42_optional_monad_partial {V : Val T} {W : Val U} {X : Val R} (hV : V.Reflexive) (hW : W.Reflexive)
    (o : Optional T) (f : T → St σ (Optional U)) (g : U → St σ (Optional R)) (s : σ) :
    (∀ v, V.Proper v → andThen V W (ofValue v) f s = f v s) ∧
    (view V (andThen V V o (fun v s => (ofValue v, s)) s).1 = view V o ∧
      (andThen V V o (fun v s => (ofValue v, s)) s).2 = s) ∧
    let r1 := andThen V W o f s
    let r := andThen V X o (fun v s => let r := f v s; andThen W X r.1 g r.2) s
    andThen W X r1.1 g r1.2 = r := by
  refine ⟨fun v hv => ?_, ?_, ?_⟩
  · have hv' : V.eq v V.ts = false := hv
    simp [andThen, hasValue, ofValue, hv']
  · cases h : hasValue V o
    · simp [andThen, h, view_empty hV, view_none_iff.mpr h]
    · simp [andThen, h]; rfl
  · have h2 : hasValue W (empty W) = false := view_none_iff.mp (view_empty hW)
    cases h : hasValue V o <;> simp [andThen, h, h2]

/-- **C42, `or_else`.** An engaged optional is returned as it is and the callable is not called; otherwise
the result is that of the callable. -/
theorem C42_optional_or_else (V : Val T) (o : Optional T) (f : St σ (Optional T)) (s : σ) :
    (∀ v, view V o = some v → view V (orElse V o f s).1 = some v ∧ (orElse V o f s).2 = s) ∧
    (view V o = none → orElse V o f s = f s) := by
  cases h : hasValue V o
  · refine ⟨fun v hv => ?_, fun _ => by simp [orElse, h]⟩
    rw [view_none_iff.mpr h] at hv; cases hv
  · have hv : view V o = some o.val := by simp [view, h, value]
    refine ⟨fun v hv' => by simp [orElse, h, hv'], fun hn => ?_⟩
    rw [hv] at hn; cases hn

/-- **C42, necessity of the side condition.** If `f` returns the tombstone for the contained value and `g`
maps the tombstone to something else, then the two transforms and the transform with the composition
differ: the first is disengaged, the second engaged. -/
theorem C42_optional_functor_violated {V : Val T} {W : Val U} {X : Val R} (hX : X.Reflexive) (v : T)
    (hv : V.Proper v) (f : T → U) (g : U → R) (hf : W.eq (f v) W.ts = true) (hg : X.Proper (g (f v))) (s : σ) :
    let o := ofValue v
    let r1 := transform V W o (fun v s => (f v, s)) s
    view X (transform W X r1.1 (fun v s => (g v, s)) r1.2).1 = none ∧
    view X (transform V X o (fun v s => (g (f v), s)) s).1 = some (g (f v)) := by
  have hv' : V.eq v V.ts = false := hv
  have hg' : X.eq (g (f v)) X.ts = false := hg
  have hX' : X.eq X.ts X.ts = true := hX
  constructor <;> simp [transform, ofCall, ofValue, hasValue, view, empty, value, hv', hf, hg', hX']

/-- **C42, identity law with another tombstone.** `transform` returns an optional with the default tombstone
of the result type: an optional with its own tombstone that holds the default tombstone as an ordinary value
comes back disengaged from `transform` with the identity. -/
theorem C42_optional_identity_violated {V D : Val T} (v : T) (hv : V.Proper v) (hd : D.eq v D.ts = true) (s : σ) :
    view V (ofValue v) = some v ∧ view D (transform V D (ofValue v) (fun v s => (v, s)) s).1 = none := by
  have hv' : V.eq v V.ts = false := hv
  constructor <;> simp [transform, ofCall, ofValue, hasValue, view, value, hv', hd]

/-- **C42, callables that change the contained value.** `transform` and `and_then` on an lvalue or rvalue
optional: the callable is called once with the contained value, and afterwards the optional contains what the
callable left behind; if nothing is contained nothing happens. -/
theorem C42_optional_by_reference {V : Val T} {W : Val U} (hW : W.Reflexive) (o : Optional T)
    (f : T → St σ (T × U)) (h : T → St σ (T × Optional U)) (s : σ) :
    match view V o with
    | none => transformRef V W o f s = ((o, empty W), s) ∧ view W (transformRef V W o f s).1.2 = none ∧
        andThenRef V W o h s = ((o, empty W), s)
    | some v =>
      let r := transformRef V W o f s
      let q := andThenRef V W o h s
      (view V r.1.1 = stored V (f v s).1.1 ∧ view W r.1.2 = stored W (f v s).1.2 ∧ r.2 = (f v s).2) ∧
      (view V q.1.1 = stored V (h v s).1.1 ∧ q.1.2 = (h v s).1.2 ∧ q.2 = (h v s).2) := by
  cases e : hasValue V o
  · rw [view_none_iff.mpr e]
    simp [transformRef, andThenRef, e, view_empty hW]
  · have hv : view V o = some o.val := by simp [view, e, value]
    rw [hv]
    simp only [transformRef, andThenRef, e, if_true]
    exact ⟨⟨view_stored V _, view_stored W _, trivial⟩, view_stored V _, trivial, trivial⟩

/-- **C42, callables that leave the contained value alone** see the same as on a const optional. -/
theorem C42_optional_by_reference_const (V : Val T) (W : Val U) (o : Optional T) (f : T → St σ U)
    (h : T → St σ (Optional U)) (s : σ) :
    transformRef V W o (fun v s => ((v, (f v s).1), (f v s).2)) s =
      ((o, (transform V W o f s).1), (transform V W o f s).2) ∧
    andThenRef V W o (fun v s => ((v, (h v s).1), (h v s).2)) s =
      ((o, (andThen V W o h s).1), (andThen V W o h s).2) := by
  unfold transformRef andThenRef transform andThen ofCall
  cases hasValue V o <;> exact ⟨rfl, rfl⟩

/-- **C42, necessity of a reflexive tombstone.** With a tombstone that is not equal to itself (a NaN),
`reset()` and default construction give an engaged optional. -/
theorem C42_optional_nan_tombstone_violated {V : Val T} (h : V.eq V.ts V.ts = false) (o : Optional T) :
    hasValue V (Op.reset.apply V o) = true ∧ hasValue V (empty V) = true := by
  simp [Op.apply, hasValue, empty, h]

/-- **C42, assigning the tombstone disengages.** -/
theorem C42_optional_assign_tombstone {V : Val T} (v : T) (h : V.eq v V.ts = true) (o : Optional T) :
    hasValue V ((Op.assign v).apply V o) = false ∧ hasValue V (ofValue v) = false := by
  simp [Op.apply, hasValue, ofValue, h]

/-- **C42, composite tombstones.** An optional of a pair or tuple is disengaged exactly when every component
equals its tombstone, and the composite tombstone is reflexive if the component ones are. -/
theorem C42_optional_tuple {n : Nat} {Ts : Fin n → Type} (V : ∀ i, Val (Ts i)) (a : ∀ i, Ts i) :
    (view (tupleVal V) (ofValue a) = none ↔ ∀ i, view (V i) (ofValue (a i)) = none) ∧
    ((∀ i, (V i).Reflexive) → (tupleVal V).Reflexive) := by
  constructor
  · simp only [view_none_iff, hasValue, tupleVal, ofValue, Bool.not_eq_false', List.all_eq_true]
    exact ⟨fun h i => h i (List.mem_finRange i), fun h i _ => h i⟩
  · intro h
    show (List.finRange n).all _ = true
    rw [List.all_eq_true]
    exact fun i _ => h i

/-! ## C43 -/

/-- `==` is an equivalence and `<` a strict total order modulo `==`. -/
structure StrictTotal (eq lt : T → T → Bool) : Prop where
  refl : ∀ a, eq a a = true
  symm : ∀ a b, eq a b = true → eq b a = true
  eqTrans : ∀ a b c, eq a b = true → eq b c = true → eq a c = true
  trans : ∀ a b c, lt a b = true → lt b c = true → lt a c = true
  total : ∀ a b, lt a b = true ∨ eq a b = true ∨ lt b a = true
  exclLt : ∀ a b, lt a b = true → lt b a = false
  exclEq : ∀ a b, lt a b = true → eq a b = false

/-- **C43.** If the value type is strictly totally ordered then so is `optional`; a disengaged optional is
less than every engaged one and equal to every disengaged one; `<=`, `>`, `>=` are consistent with `<` and
`==`. -/
theorem C43_optional_order {V : Val T} (hV : StrictTotal V.eq V.lt) :
    StrictTotal (eq V) (lt V) ∧
    (∀ a b, view V a = none → lt V a b = (view V b).isSome ∧ lt V b a = false ∧ eq V a b = (view V b).isNone) ∧
    (∀ a b x y, view V a = some x → view V b = some y → lt V a b = V.lt x y ∧ eq V a b = V.eq x y) ∧
    (∀ a b, le V a b = (lt V a b || eq V a b) ∧ gt V a b = lt V b a ∧ ge V a b = (lt V b a || eq V a b)) := by
  have hE : StrictTotal (eq V) (lt V) := by
    refine ⟨fun a => hV.refl _, fun a b => hV.symm _ _, fun a b c => hV.eqTrans _ _ _, ?_, ?_, ?_, ?_⟩
    · intro a b c
      have := hV.trans a.val b.val c.val
      unfold lt
      cases hasValue V a <;> cases hasValue V b <;> cases hasValue V c <;> simp <;> exact this
    · intro a b
      have ht := hV.total a.val b.val
      unfold lt eq
      cases ha : hasValue V a <;> cases hb : hasValue V b <;> simp
      · have h1 : V.eq a.val V.ts = true := by simpa [hasValue] using ha
        have h2 : V.eq b.val V.ts = true := by simpa [hasValue] using hb
        exact hV.eqTrans _ _ _ h1 (hV.symm _ _ h2)
      · exact ht
    · intro a b
      have := hV.exclLt a.val b.val
      unfold lt
      cases hasValue V a <;> cases hasValue V b <;> simp
      simpa using this
    · intro a b
      have ht := hV.exclEq a.val b.val
      unfold lt eq
      cases ha : hasValue V a <;> cases hb : hasValue V b <;> simp
      · have h1 : V.eq a.val V.ts = true := by simpa [hasValue] using ha
        have h2 : V.eq b.val V.ts = false := by simpa [hasValue] using hb
        by_contra hc
        have hc' : V.eq a.val b.val = true := by simpa using hc
        rw [hV.eqTrans _ _ _ (hV.symm _ _ hc') h1] at h2
        cases h2
      · simpa using ht
  refine ⟨hE, fun a b ha => ?_, fun a b x y ha hb => ?_, fun a b => ?_⟩
  · have ha' := view_none_iff.mp ha
    cases hb : hasValue V b
    · rw [view_none_iff.mpr hb]
      refine ⟨by simp [lt, ha', hb], by simp [lt, ha', hb], ?_⟩
      have h1 : V.eq a.val V.ts = true := by simpa [hasValue] using ha'
      have h2 : V.eq b.val V.ts = true := by simpa [hasValue] using hb
      exact hV.eqTrans _ _ _ h1 (hV.symm _ _ h2)
    · have hvb : view V b = some b.val := by simp [view, hb, value]
      rw [hvb]
      have hl : lt V a b = true := by simp [lt, ha', hb]
      exact ⟨hl, hE.exclLt _ _ hl, hE.exclEq _ _ hl⟩
  · have ha' : hasValue V a = true := by
      by_contra h; rw [view_none_iff.mpr (by simpa using h)] at ha; cases ha
    have hb' : hasValue V b = true := by
      by_contra h; rw [view_none_iff.mpr (by simpa using h)] at hb; cases hb
    have h1 : a.val = x := by simpa [view, ha', value] using ha
    have h2 : b.val = y := by simpa [view, hb', value] using hb
    subst h1; subst h2
    exact ⟨by simp [lt, ha', hb'], rfl⟩
  · have ht := hE.total a b
    have e1 := hE.exclLt a b
    have e2 := hE.exclEq a b
    have e3 := hE.exclLt b a
    have e4 := hE.exclEq b a
    have e5 := hE.symm a b
    have e6 := hE.symm b a
    unfold le gt ge
    cases h1 : lt V a b <;> cases h2 : lt V b a <;> cases h3 : eq V a b <;> simp_all

theorem lexLt_total {ι : Type} {Ts : ι → Type} {V : ∀ i, Val (Ts i)} (h : ∀ i, StrictTotal (V i).eq (V i).lt)
    (is : List ι) : StrictTotal (fun a b : ∀ i, Ts i => is.all fun i => (V i).eq (a i) (b i))
      (fun a b => lexLt V a b is) := by
  -- `<` respects `==`
  have ltEq : ∀ i (a b c : Ts i), (V i).lt a b = true → (V i).eq b c = true → (V i).lt a c = true := by
    intro i a b c h1 h2
    rcases (h i).total a c with h3 | h3 | h3
    · exact h3
    · have := (h i).eqTrans _ _ _ h3 ((h i).symm _ _ h2)
      rw [(h i).exclEq _ _ h1] at this; cases this
    · have := (h i).trans _ _ _ h3 h1
      have := (h i).exclEq _ _ this
      rw [(h i).symm _ _ h2] at this; cases this
  have eqLt : ∀ i (a b c : Ts i), (V i).eq a b = true → (V i).lt b c = true → (V i).lt a c = true := by
    intro i a b c h1 h2
    rcases (h i).total a c with h3 | h3 | h3
    · exact h3
    · have := (h i).eqTrans _ _ _ ((h i).symm _ _ h1) h3
      rw [(h i).exclEq _ _ h2] at this; cases this
    · have := (h i).trans _ _ _ h2 h3
      have := (h i).exclEq _ _ this
      rw [(h i).symm _ _ h1] at this; cases this
  have eqNot : ∀ i (a b : Ts i), (V i).eq a b = true → (V i).lt a b = false ∧ (V i).lt b a = false := by
    intro i a b h1
    constructor
    · cases h2 : (V i).lt a b
      · rfl
      · rw [(h i).exclEq _ _ h2] at h1; cases h1
    · cases h2 : (V i).lt b a
      · rfl
      · have := (h i).symm _ _ h1
        rw [(h i).exclEq _ _ h2] at this; cases this
  induction is with
  | nil => constructor <;> intros <;> simp_all [lexLt]
  | cons i is ih =>
    have cases3 : ∀ a b : ∀ i, Ts i,
        ((V i).lt (a i) (b i) = true ∧ (V i).lt (b i) (a i) = false ∧ (V i).eq (a i) (b i) = false) ∨
        ((V i).lt (a i) (b i) = false ∧ (V i).lt (b i) (a i) = false ∧ (V i).eq (a i) (b i) = true) ∨
        ((V i).lt (a i) (b i) = false ∧ (V i).lt (b i) (a i) = true ∧ (V i).eq (a i) (b i) = false) := by
      intro a b
      rcases (h i).total (a i) (b i) with h1 | h1 | h1
      · exact .inl ⟨h1, (h i).exclLt _ _ h1, (h i).exclEq _ _ h1⟩
      · exact .inr (.inl ⟨(eqNot i _ _ h1).1, (eqNot i _ _ h1).2, h1⟩)
      · refine .inr (.inr ⟨(h i).exclLt _ _ h1, h1, ?_⟩)
        cases h2 : (V i).eq (a i) (b i)
        · rfl
        · rw [(eqNot i _ _ h2).2] at h1; cases h1
    refine ⟨fun a => ?_, fun a b => ?_, fun a b c => ?_, fun a b c => ?_, fun a b => ?_, fun a b => ?_, fun a b => ?_⟩
    · simp only [List.all_cons, (h i).refl, Bool.true_and]; exact ih.refl a
    · simp only [List.all_cons, Bool.and_eq_true]
      exact fun ⟨h1, h2⟩ => ⟨(h i).symm _ _ h1, ih.symm a b h2⟩
    · simp only [List.all_cons, Bool.and_eq_true]
      exact fun ⟨h1, h2⟩ ⟨h3, h4⟩ => ⟨(h i).eqTrans _ _ _ h1 h3, ih.eqTrans a b c h2 h4⟩
    · simp only [lexLt]
      have t := ih.trans a b c
      rcases cases3 a b with ⟨x1, x2, x3⟩ | ⟨x1, x2, x3⟩ | ⟨x1, x2, x3⟩ <;>
        rcases cases3 b c with ⟨y1, y2, y3⟩ | ⟨y1, y2, y3⟩ | ⟨y1, y2, y3⟩ <;> simp only [x1, x2, y1, y2] <;> simp
      · simp [(h i).trans _ _ _ x1 y1]
      · simp [ltEq i _ _ _ x1 y3]
      · simp [eqLt i _ _ _ x3 y1]
      · have z := eqNot i _ _ ((h i).eqTrans _ _ _ x3 y3)
        simp only [z.1, z.2]; simpa using t
    · simp only [lexLt, List.all_cons]
      have t := ih.total a b
      rcases cases3 a b with ⟨x1, x2, x3⟩ | ⟨x1, x2, x3⟩ | ⟨x1, x2, x3⟩ <;> simp only [x1, x2, x3] <;> simp
      simpa using t
    · simp only [lexLt]
      have t := ih.exclLt a b
      rcases cases3 a b with ⟨x1, x2, x3⟩ | ⟨x1, x2, x3⟩ | ⟨x1, x2, x3⟩ <;> simp only [x1, x2] <;> simp
      simpa using t
    · simp only [lexLt, List.all_cons]
      have t := ih.exclEq a b
      rcases cases3 a b with ⟨x1, x2, x3⟩ | ⟨x1, x2, x3⟩ | ⟨x1, x2, x3⟩ <;> simp only [x1, x2, x3] <;> simp
      simpa using t

/-- **C43, composite types.** If the components of a pair or tuple are strictly totally ordered then so is an
optional of it. -/
theorem C43_optional_tuple_order {n : Nat} {Ts : Fin n → Type} {V : ∀ i, Val (Ts i)}
    (h : ∀ i, StrictTotal (V i).eq (V i).lt) : StrictTotal (eq (tupleVal V)) (lt (tupleVal V)) :=
  (C43_optional_order (lexLt_total h (List.finRange n))).1

/-! ## C44 -/

variable {ι : Type} {Ts : ι → Type}

/-- All values, if all are present. -/
def collect : List (Σ i, Option (Ts i)) → Option (List (Σ i, Ts i))
  | [] => some []
  | ⟨_, none⟩ :: _ => none
  | ⟨i, some v⟩ :: os => (collect os).map (⟨i, v⟩ :: ·)

/-- The arguments as a user sees them. -/
def views (V : ∀ i, Val (Ts i)) (os : List (Σ i, Optional (Ts i))) : List (Σ i, Option (Ts i)) :=
  os.map fun o => ⟨o.1, view (V o.1) o.2⟩

theorem collect_views (V : ∀ i, Val (Ts i)) (os : List (Σ i, Optional (Ts i))) :
    collect (views V os) = if allEngaged V os then some (values os) else none := by
  induction os with
  | nil => rfl
  | cons o os ih =>
    obtain ⟨i, o⟩ := o
    have ih' : collect (os.map fun o => ⟨o.1, view (V o.1) o.2⟩) = if allEngaged V os then some (values os) else none := ih
    cases h : hasValue (V i) o
    · simp [views, collect, allEngaged, h, view_none_iff.mpr h]
    · have : view (V i) o = some (value o) := by simp [view, h]
      simp only [views, List.map_cons, this, collect, ih', allEngaged, h, Bool.true_and]
      split <;> rfl

/-- **C44, `stdx::optional`.** For any number of arguments of any types: if every argument is engaged the
callable is called once with the values in order and the result holds what it returns (unless that is the
tombstone); otherwise it is not called and the result is disengaged. -/
theorem C44_transform_n_partial {V : ∀ i, Val (Ts i)} {W : Val U} (hW : W.Reflexive) (f : List (Σ i, Ts i) → St σ U)
    (os : List (Σ i, Optional (Ts i))) (s : σ) :
    match collect (views V os) with
    | none => view W (transformN V W f os s).1 = none ∧ (transformN V W f os s).2 = s
    | some vs => (transformN V W f os s).2 = (f vs s).2 ∧ view W (transformN V W f os s).1 = stored W (f vs s).1 := by
  rw [collect_views]
  unfold transformN
  cases h : allEngaged V os
  · simp [view_empty hW]
  · exact ⟨rfl, view_stored W _⟩

/-- **C44, engaged iff all are.** -/
theorem C44_transform_n_engaged_partial {V : ∀ i, Val (Ts i)} {W : Val U} (hW : W.Reflexive) (f : List (Σ i, Ts i) → St σ U)
    (os : List (Σ i, Optional (Ts i))) (s : σ) (hf : ∀ vs, W.Proper (f vs s).1) :
    (view W (transformN V W f os s).1).isSome ↔ ∀ o ∈ os, (view (V o.1) o.2).isSome := by
  have hall : allEngaged V os = true ↔ ∀ o ∈ os, (view (V o.1) o.2).isSome := by
    induction os with
    | nil => simp [allEngaged]
    | cons o os ih =>
      obtain ⟨i, o⟩ := o
      simp only [allEngaged, Bool.and_eq_true, ih, List.forall_mem_cons]
      have : hasValue (V i) o = true ↔ (view (V i) o).isSome := by
        cases h : hasValue (V i) o
        · simp [view_none_iff.mpr h]
        · simp [view, h]
      rw [this]
  rw [← hall]
  unfold transformN
  cases h : allEngaged V os
  · simp [view_empty hW]
  · have : view W (ofCall (f (values os)) s).1 = some (f (values os) s).1 := view_proper (hf _)
    simp [this]

/-- **C44 (negation).** All arguments contain a value, yet the result contains none, when the function returns the
result's tombstone. -/
theorem C44_tombstone_result_violated {V : ∀ i, Val (Ts i)} {W : Val U} (hW : W.Reflexive) (f : List (Σ i, Ts i) → St σ U)
    (os : List (Σ i, Optional (Ts i))) (s : σ) (hall : ∀ o ∈ os, (view (V o.1) o.2).isSome)
    (hf : ∀ vs, (f vs s).1 = W.ts) :
    ∃ vs, collect (views V os) = some vs ∧ (transformN V W f os s).2 = (f vs s).2 ∧ view W (transformN V W f os s).1 = none := by
  have hc : ∀ os : List (Σ i, Optional (Ts i)), (∀ o ∈ os, (view (V o.1) o.2).isSome) → ∃ vs, collect (views V os) = some vs := by
    intro os
    induction os with
    | nil => intro _; exact ⟨[], rfl⟩
    | cons o os ih =>
      intro h
      obtain ⟨vs, hvs⟩ := ih fun o ho => h o (List.mem_cons_of_mem _ ho)
      obtain ⟨v, hv⟩ := Option.isSome_iff_exists.1 (h o (List.mem_cons_self ..))
      refine ⟨⟨o.1, v⟩ :: vs, ?_⟩
      simp only [views, List.map_cons, hv, collect] at hvs ⊢
      rw [hvs]; rfl
  obtain ⟨vs, hvs⟩ := hc os hall
  have h := C44_transform_n_partial (V := V) hW f os s
  rw [hvs] at h
  refine ⟨vs, hvs, h.1, ?_⟩
  have hW' : W.eq W.ts W.ts = true := hW
  rw [h.2, hf]
  simp [stored, hW']

/-- **C44, `std::optional`.** The same, with no side condition. -/
theorem C44_transform_std (f : List (Σ i, Ts i) → St σ U) (os : List (Σ i, Option (Ts i))) (s : σ) :
    transformStd f os s = .ok (match collect os with
      | none => (none, s)
      | some vs => (some (f vs s).1, (f vs s).2)) := by
  have key : ∀ os : List (Σ i, Option (Ts i)), (allEngagedStd os = (collect os).isSome) ∧
      ∀ vs, collect os = some vs → valuesStd os = .ok vs := by
    intro os
    induction os with
    | nil => exact ⟨rfl, fun vs h => by injection h with h; subst h; rfl⟩
    | cons o os ih =>
      obtain ⟨i, o⟩ := o
      cases o with
      | none => exact ⟨rfl, fun vs h => by cases h⟩
      | some v =>
        refine ⟨by simp [allEngagedStd, collect, ih.1], fun vs h => ?_⟩
        simp only [collect, Option.map_eq_some_iff] at h
        obtain ⟨ws, h1, rfl⟩ := h
        simp [valuesStd, ih.2 ws h1]
  obtain ⟨h1, h2⟩ := key os
  unfold transformStd
  rw [h1]
  cases h : collect os with
  | none => simp
  | some vs => simp [h2 vs h]

/-- Pointers with a null tombstone, modelled as numbers, satisfy the hypotheses. -/
def natVal : Val Nat := ⟨fun a b => a == b, fun a b => decide (a < b), 0⟩
/-- Integers with `tombstone_value<-1>`. -/
def intVal : Val Int := ⟨fun a b => a == b, fun a b => decide (a < b), -1⟩
/-- The two types above as argument types of one call. -/
abbrev exTs : Bool → Type := fun b => if b then Nat else Int
def exV : ∀ b, Val (exTs b)
  | true => natVal
  | false => intVal
example : natVal.Reflexive ∧ natVal.Proper 5 := ⟨rfl, rfl⟩
example : StrictTotal natVal.eq natVal.lt := by
  constructor <;> intros <;> simp_all [natVal] <;> omega
example : view natVal (transform natVal natVal (ofValue 5) (fun v (s : Nat) => (v + 1, s + 1)) 0).1 = some 6 := by
  decide
example : Admissible natVal none [.assign 5, .modify (· + 1), .reset, .emplace 0, .assign 3] :=
  ⟨by simp, by intro g _; rfl, by simp, by simp, by simp, trivial⟩
example : (List.foldl (specStep natVal) none [.assign 5, .modify (· + 1), .reset, .emplace 0, .assign 3]) = some 3 := by
  decide
-- 0 is ordinary for `tombstone_value<-1>` and the tombstone of another choice
example : intVal.Proper 0 ∧ (⟨intVal.eq, intVal.lt, 0⟩ : Val Int).eq 0 0 = true := ⟨rfl, rfl⟩
example : view natVal (transformRef natVal natVal (ofValue 5) (fun v (s : Nat) => ((v + 1, v), s)) 0).1.1 = some 6 := by
  decide
example : (collect (views exV [⟨true, ofValue (3 : Nat)⟩, ⟨false, ofValue (4 : Int)⟩])).isSome = true := by decide
example : (collect (views exV [⟨true, ofValue (3 : Nat)⟩, ⟨false, ofValue (-1 : Int)⟩])).isSome = false := by decide

end Verif.Opt
