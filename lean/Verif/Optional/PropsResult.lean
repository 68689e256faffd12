import Verif.Optional.Result
import Verif.Optional.Props

/-!
# C42 and C44 for every result type of `transform`
-/

namespace Verif.Opt

variable {T U σ : Type}
variable {ι : Type} {Ts : ι → Type}

/-! ## Specification -/

/-- What `transform` of a `std::optional` does: the callable is called once with the value if there is one, and the result
holds what it returns. -/
def mapSpec {A : Type} (o : Option A) (f : A → St σ U) (s : σ) : Option U × σ :=
  match o with
  | none => (none, s)
  | some v => (some (f v s).1, (f v s).2)

/-- What a value becomes in an optional whose tombstone counts as no value. -/
def dropTomb (W : Val U) (r : Option U × σ) : Option U × σ := (r.1.bind (stored W), r.2)

/-! ## Theorems -/

/-- C42 (what is missing: aggregates and types with a constructor that takes the wrapper, see below).  A callable whose
result is neither: `transform` compiles and does what `transform` of a `std::optional` does, where a result that is the
tombstone counts as no value. -/
theorem C42_transform_result_partial {V : Val T} {W : Val U} (hW : W.Reflexive) (o : Optional T) (f : T → St σ U) :
    ∃ t, transformR .plain V W o f = some t ∧
      ∀ s, (view W (t s).1, (t s).2) = dropTomb W (mapSpec (view V o) f s) := by
  refine ⟨_, rfl, fun s => ?_⟩
  cases h : hasValue V o
  · simp [view_none_iff.mpr h, mapSpec, dropTomb, view_empty hW]
  · have hv : view V o = some o.val := by simp [view, h, value]
    simp only [if_true, hv, mapSpec, dropTomb, Option.bind_some]
    exact Prod.ext (view_stored W _) rfl

/-- C42 is false of callables that return an aggregate (a struct without constructors, or an array): whether there is a
value or not, `transform` does not compile.  For every other result type it does. -/
theorem C42_transform_aggregate_violated (k : RKind U) (V : Val T) (W : Val U) (o : Optional T) (f : T → St σ U) :
    transformR k V W o f = none ↔ k = .aggregate := by
  cases k <;> simp [transformR, initBraces]

/-- C42 is false of callables that return a type which can be made from the wrapper, or an aggregate whose first member
can: `transform` never calls the callable, and the result holds `u`, whatever the callable would return. -/
theorem C42_transform_not_called_violated (k : RKind U) (u : U) (hk : k = .any u ∨ k = .aggregateAny u) {V : Val T}
    {W : Val U} (hu : W.Proper u) (v : T) (hv : V.Proper v) (f : T → St σ U) (s : σ) (hf : (f v s).1 ≠ u) :
    ∃ t, transformR k V W (ofValue v) f = some t ∧ (t s).2 = s ∧ view W (t s).1 = some u ∧
      (view W (t s).1, (t s).2) ≠ mapSpec (view V (ofValue v)) f s := by
  have hv' : hasValue V (ofValue v) = true := by
    have : V.eq v V.ts = false := hv
    simp [hasValue, ofValue, this]
  have key : ∃ t, transformR k V W (ofValue v) f = some t ∧ t s = (⟨u⟩, s) := by
    rcases hk with rfl | rfl <;> exact ⟨_, rfl, by simp [hv', ofCall]⟩
  obtain ⟨t, h1, h2⟩ := key
  have hw : view W (t s).1 = some u := by rw [h2]; exact view_proper hu
  refine ⟨t, h1, by rw [h2], hw, ?_⟩
  rw [hw, h2, view_proper hv]
  intro e
  have := congrArg Prod.fst e
  simp only [mapSpec, Option.some.injEq] at this
  exact hf this.symm

/-- C44 (what is missing: aggregates and types with a constructor that takes the wrapper). -/
theorem C44_transform_result_partial {V : ∀ i, Val (Ts i)} {W : Val U} (hW : W.Reflexive)
    (f : List (Σ i, Ts i) → St σ U) (os : List (Σ i, Optional (Ts i))) :
    ∃ t, transformNR .plain V W f os = some t ∧
      ∀ s, (view W (t s).1, (t s).2) = dropTomb W (mapSpec (collect (views V os)) f s) := by
  refine ⟨transformN V W f os, rfl, fun s => ?_⟩
  have h := C44_transform_n_partial (V := V) hW f os s
  cases hc : collect (views V os) with
  | none =>
    rw [hc] at h
    exact Prod.ext h.1 h.2
  | some vs =>
    rw [hc] at h
    exact Prod.ext h.2 h.1

/-- C44 is false of callables that return an aggregate: `transform` on `stdx::optional`s does not compile, whatever the
arguments; on `std::optional`s it compiles and gives the result of the one call. -/
theorem C44_transform_aggregate_violated (k : RKind U) (V : ∀ i, Val (Ts i)) (W : Val U) (f : List (Σ i, Ts i) → St σ U)
    (os : List (Σ i, Optional (Ts i))) :
    (transformNR k V W f os = none ↔ k = .aggregate) ∧
    ∀ (os : List (Σ i, Option (Ts i))) s, transformStdR .aggregate f os s = .ok (mapSpec (collect os) f s) := by
  constructor
  · cases k <;> simp [transformNR, initBraces]
  · intro os s
    have h := C44_transform_std f os s
    have : transformStdR .aggregate f os s = transformStd f os s := rfl
    rw [this, h]
    cases collect os <;> rfl

/-- C44 is false of callables that return a type with a constructor that takes the wrapper: on `stdx::optional`s and
`std::optional`s that all hold values the callable is not called, and the result holds `u`. -/
theorem C44_transform_not_called_violated (u : U) {V : ∀ i, Val (Ts i)} {W : Val U} (hu : W.Proper u)
    (f : List (Σ i, Ts i) → St σ U) (os : List (Σ i, Optional (Ts i))) (vs : List (Σ i, Ts i))
    (hc : collect (views V os) = some vs) (ps : List (Σ i, Option (Ts i))) (ws : List (Σ i, Ts i))
    (hp : collect ps = some ws) (s : σ) :
    (∃ t, transformNR (.any u) V W f os = some t ∧ view W (t s).1 = some u ∧ (t s).2 = s) ∧
    transformStdR (.any u) f ps s = .ok (some u, s) := by
  constructor
  · refine ⟨_, rfl, ?_⟩
    have : allEngaged V os = true := by
      rw [collect_views] at hc
      cases h : allEngaged V os
      · rw [h] at hc; cases hc
      · rfl
    rw [this]
    exact ⟨view_proper hu, rfl⟩
  · have h := C44_transform_std (fun _ s => (u, s)) ps s
    have e : transformStdR (.any u) f ps s = transformStd (fun _ s => (u, s)) ps s := rfl
    rw [e, h, hp]

/-- C44: `transform(f, ts...)` compiles exactly if there is an argument and all arguments are of one kind; the result is of
that kind. -/
theorem C44_kinds_iff (ks : List OKind) (k : OKind) : resultKind ks = some k ↔ ks ≠ [] ∧ ∀ x ∈ ks, x = k := by
  cases ks with
  | nil => simp [resultKind]
  | cons a ks =>
    have hs : ∀ (a b : OKind), a ≠ b → (∀ x ∈ a :: ks, x = a) → ¬ ∀ x ∈ a :: ks, x = b := fun a b hab _ h =>
      hab (h a (List.mem_cons_self ..))
    unfold resultKind
    cases h1 : (a :: ks).all (· = .stdx) <;> cases h2 : (a :: ks).all (· = .std) <;>
      simp only [List.all_eq_true, List.all_eq_false, decide_eq_true_eq] at h1 h2
    · refine ⟨(fun h => nomatch h), fun h => ?_⟩
      cases k
      · obtain ⟨x, hx, hn⟩ := h1; exact absurd (h.2 x hx) hn
      · obtain ⟨x, hx, hn⟩ := h2; exact absurd (h.2 x hx) hn
    · refine ⟨fun h => ⟨by simp, ?_⟩, fun h => ?_⟩
      · cases h; exact h2
      · have := h.2 a (List.mem_cons_self ..)
        rw [← this, h2 a (List.mem_cons_self ..)]
    · refine ⟨fun h => ⟨by simp, ?_⟩, fun h => ?_⟩
      · cases h; exact h1
      · have := h.2 a (List.mem_cons_self ..)
        rw [← this, h1 a (List.mem_cons_self ..)]
    · have e1 := h1 a (List.mem_cons_self ..)
      have e2 := h2 a (List.mem_cons_self ..)
      rw [e1] at e2
      cases e2

/-- C44 is false with no arguments, and with both `std::optional` and `stdx::optional` arguments: neither compiles. -/
theorem C44_mixed_violated (ks : List OKind) (h : ks = [] ∨ (OKind.stdx ∈ ks ∧ OKind.std ∈ ks)) : resultKind ks = none := by
  cases hk : resultKind ks with
  | none => rfl
  | some k =>
    obtain ⟨h1, h2⟩ := (C44_kinds_iff ks k).1 hk
    rcases h with h | ⟨ha, hb⟩
    · exact absurd h h1
    · have := (h2 _ ha).trans (h2 _ hb).symm
      cases this

example : OKind.stdx ∈ [OKind.std, .stdx] ∧ OKind.std ∈ [OKind.std, .stdx] := by decide

/-! Instances of the hypotheses. -/

example : natVal.Reflexive ∧ natVal.Proper 5 ∧ ((fun v s => (v + 1, s + 1) : Nat → St Nat Nat) 5 0).1 ≠ 9 ∧
    natVal.Proper 9 := by
  exact ⟨rfl, rfl, by decide, rfl⟩

example : collect ([⟨true, some 4⟩, ⟨false, some 7⟩] : List (Σ _ : Bool, Option Nat)) = some [⟨true, 4⟩, ⟨false, 7⟩] := rfl

end Verif.Opt
