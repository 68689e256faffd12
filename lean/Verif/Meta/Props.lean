import Verif.Meta.Model
import Mathlib.Tactic.SplitIfs
import Mathlib.Tactic.IntervalCases
import Mathlib.Tactic.Ring
import Mathlib.Tactic.Linarith
import Mathlib.Tactic.Positivity

namespace Verif.Meta

/-! ## C88 — `is_specialization_of_v` -/

/-- The class that `u` is or refers to, with its qualification. -/
def classOf : Ty → Option (Cls × CV)
  | .cls c cv => some (c, cv)
  | .lref (.cls c cv) => some (c, cv)
  | .rref (.cls c cv) => some (c, cv)
  | _ => none

/-- `void` and qualified function types cannot be referred to. -/
def Referenceable (u : Ty) : Prop := (∀ cv, u ≠ .void cv) ∧ ∀ i, u ≠ .func i true

/-- `is_specialization_of_v` is true exactly of the specialisations of the template, and of references to them. Missing: `void`,
qualified functions and volatile classes, see the next theorem. -/
theorem C88_specialization_partial (u : Ty) (tmpl : Nat) (h : Referenceable u)
    (hv : ∀ c cv, classOf u = some (c, cv) → cv.volatile = false) :
    ((isTypeSpecialization u tmpl = some true ↔
        ∃ c cv args, classOf u = some (c, cv) ∧ c.templ = some (.types tmpl args)) ∧
      (isValueSpecialization u tmpl = some true ↔
        ∃ c cv args, classOf u = some (c, cv) ∧ c.templ = some (.values tmpl args))) ∧
      (isTypeSpecialization u tmpl).isSome ∧ (isValueSpecialization u tmpl).isSome := by
  have key : ∀ (c : Cls) (cv : CV), cv.volatile = false →
      ((typeSpecRef tmpl (.lref (.cls c cv)) = true ↔ ∃ args, c.templ = some (.types tmpl args)) ∧
       (valueSpecRef tmpl (.lref (.cls c cv)) = true ↔ ∃ args, c.templ = some (.values tmpl args))) := by
    intro c cv hcv
    obtain ⟨k, v⟩ := cv
    obtain ⟨id, un, fi, hc, te⟩ := c
    simp only at hcv
    subst hcv
    cases k <;> rcases te with _ | ⟨t, as⟩ | ⟨t, as⟩ <;> simp [typeSpecRef, valueSpecRef, CV.empty]
  have fin : ∀ (c : Cls) (cv : CV), classOf u = some (c, cv) → u.addLref = some (.lref (.cls c cv)) →
      ((isTypeSpecialization u tmpl = some true ↔
        ∃ c cv args, classOf u = some (c, cv) ∧ c.templ = some (.types tmpl args)) ∧
      (isValueSpecialization u tmpl = some true ↔
        ∃ c cv args, classOf u = some (c, cv) ∧ c.templ = some (.values tmpl args))) ∧
      (isTypeSpecialization u tmpl).isSome ∧ (isValueSpecialization u tmpl).isSome := by
    intro c cv hc ha
    have := key c cv (hv c cv hc)
    simp [isTypeSpecialization, isValueSpecialization, ha, hc, this.1, this.2]
  cases u with
  | void cv => exact absurd rfl (h.1 cv)
  | func i q =>
    cases q
    · simp [isTypeSpecialization, isValueSpecialization, Ty.addLref, typeSpecRef, valueSpecRef, classOf]
    · exact absurd rfl (h.2 i)
  | cls c cv => exact fin c cv rfl rfl
  | lref t =>
    cases t with
    | cls c cv => exact fin c cv rfl rfl
    | _ => simp [isTypeSpecialization, isValueSpecialization, Ty.addLref, typeSpecRef, valueSpecRef, classOf]
  | rref t =>
    cases t with
    | cls c cv => exact fin c cv rfl rfl
    | _ => simp [isTypeSpecialization, isValueSpecialization, Ty.addLref, typeSpecRef, valueSpecRef, classOf]
  | _ => simp [isTypeSpecialization, isValueSpecialization, Ty.addLref, typeSpecRef, valueSpecRef, classOf]

/-- A reference to a const `std::tuple<int>`, say. -/
example : Referenceable (.lref (.cls ⟨0, false, false, false, some (.types 3 [1])⟩ ⟨true, false⟩)) ∧
    isTypeSpecialization (.lref (.cls ⟨0, false, false, false, some (.types 3 [1])⟩ ⟨true, false⟩)) 3 = some true :=
  ⟨⟨nofun, nofun⟩, rfl⟩

/-- For `void` and for qualified function types the question does not compile, and a volatile specialisation is not recognised. -/
theorem C88_void_and_volatile_violated (tmpl : Nat) :
    (∀ cv, isTypeSpecialization (.void cv) tmpl = none ∧ isValueSpecialization (.void cv) tmpl = none) ∧
    (∀ i, isTypeSpecialization (.func i true) tmpl = none ∧ isValueSpecialization (.func i true) tmpl = none) ∧
    (∀ c k args, c.templ = some (.types tmpl args) → isTypeSpecialization (.cls c ⟨k, true⟩) tmpl = some false) ∧
    (∀ c k args, c.templ = some (.values tmpl args) → isValueSpecialization (.cls c ⟨k, true⟩) tmpl = some false) := by
  refine ⟨fun _ => ⟨rfl, rfl⟩, fun _ => ⟨rfl, rfl⟩, fun c k args _ => ?_, fun c k args _ => ?_⟩ <;>
    cases k <;> simp [isTypeSpecialization, isValueSpecialization, Ty.addLref, typeSpecRef, valueSpecRef, CV.empty]

/-! ## C89 — `is_function_v`, `is_function_object_v`, `is_callable_v` -/

/-- `T` is a function type. -/
def IsFunction (t : Ty) : Prop := ∃ i q, t = .func i q

/-- Objects of type `T` are called through a member `operator()`. -/
def IsFunctionObject (t : Ty) : Prop := (∃ c cv, t = .cls c cv ∧ c.hasCall = true) ∨ ∃ u cv, t = .shrunk u cv

/-- `is_function_v` is exact, for every type. -/
theorem C89_function (t : Ty) : isFunction t = true ↔ IsFunction t := by
  cases t <;> simp [isFunction, Ty.isRef, Ty.addConst, Ty.isConst, IsFunction]

/-- `is_function_object_v` and `is_callable_v` are exact, except for final classes and unions, see the next theorem. -/
theorem C89_callable_partial (t : Ty) (h : ∀ c cv, t = .cls c cv → c.final = false ∧ c.union = false) :
    (isFunctionObject t = some true ↔ IsFunctionObject t) ∧ (isCallable t = some true ↔ IsFunction t ∨ IsFunctionObject t) ∧
      (isFunctionObject t).isSome ∧ (isCallable t).isSome := by
  have hf := C89_function t
  have key : (isFunctionObject t = some true ↔ IsFunctionObject t) ∧ (isFunctionObject t).isSome := by
    cases t with
    | cls c cv => simp [isFunctionObject, IsFunctionObject, (h c cv rfl).1, (h c cv rfl).2]
    | _ => simp [isFunctionObject, IsFunctionObject]
  obtain ⟨b, hb⟩ := Option.isSome_iff_exists.1 key.2
  rw [hb] at key
  refine ⟨by rw [hb]; exact key.1, ?_, by simp [hb], by simp [isCallable, hb]⟩
  rw [← hf, ← key.1]
  simp [isCallable, hb]

/-- A class with a call operator, and a qualified function type. -/
example : isCallable (.cls ⟨0, false, false, true, none⟩ ⟨true, false⟩) = some true ∧ isCallable (.func 1 true) = some true ∧
    isCallable (.lref (.func 1 false)) = some false := ⟨rfl, rfl, rfl⟩

/-- A final class with a call operator cannot be asked about; a union with one is said not to be callable. -/
theorem C89_final_union_violated (c : Cls) (cv : CV) (hc : c.hasCall = true) :
    IsFunctionObject (.cls c cv) ∧
    (c.union = true → isFunctionObject (.cls c cv) = some false ∧ isCallable (.cls c cv) = some false) ∧
    (c.union = false → c.final = true → isFunctionObject (.cls c cv) = none ∧ isCallable (.cls c cv) = none) := by
  refine ⟨.inl ⟨c, cv, rfl, hc⟩, fun h => ?_, fun h h' => ?_⟩
  · obtain ⟨k, v⟩ := cv
    simp [isFunctionObject, isCallable, h, isFunction, Ty.isRef, Ty.addConst, Ty.isConst]
  · simp [isFunctionObject, isCallable, h, h']

example : (⟨0, true, false, true, none⟩ : Cls).hasCall = true ∧ (⟨0, false, true, true, none⟩ : Cls).final = true := ⟨rfl, rfl⟩

/-! ## C90 — `shrink` and `expand` -/

/-- Neither an array, nor a function, nor a scalar or `void` with a qualification. -/
def Expandable : Ty → Prop
  | .array _ _ _ => False
  | .func _ _ => False
  | .void cv => cv = ⟨false, false⟩
  | .scalar _ cv => cv = ⟨false, false⟩
  | _ => True

/-- A type that is not the result of `shrink_t`. -/
def NotShrunk : Ty → Prop
  | .shrunk _ _ => False
  | _ => True

/-- `expand_t` undoes `shrink_t`, also of a shrunk type, and leaves what is not shrunk alone; different types have different
shrunk types. Missing: see the next theorem. -/
theorem C90_round_trip_partial (t : Ty) :
    (Expandable t → expandT (shrinkT t) = some t) ∧ (Expandable t → NotShrunk t → expandT t = some t) ∧
      ∀ u, shrinkT t = shrinkT u → t = u := by
  refine ⟨?_, ?_, fun u h => by simpa [shrinkT] using h⟩
  · cases t <;> simp [Expandable, expandT, shrinkT, Ty.returnable, Ty.callType, CV.empty] <;> exact fun h => h.symm
  · cases t <;> simp [Expandable, NotShrunk, expandT, Ty.returnable, Ty.callType, CV.empty] <;> exact fun h => h.symm

/-- A shrunk reference to a volatile scalar, shrunk again. -/
example : Expandable (shrinkT (.lref (.scalar 0 ⟨false, true⟩))) := trivial

/-- A qualified scalar comes back without its qualification; an array or a function does not come back at all, but its shrunk
type. -/
theorem C90_not_restored_violated :
    (∀ i cv, cv ≠ ⟨false, false⟩ → expandT (shrinkT (.scalar i cv)) = some (.scalar i ⟨false, false⟩) ∧
      expandT (shrinkT (.scalar i cv)) ≠ some (.scalar i cv)) ∧
    (∀ t, (∃ e n cv, t = .array e n cv) ∨ (∃ i q, t = .func i q) → expandT (shrinkT t) = some (shrinkT t) ∧ shrinkT t ≠ t) := by
  refine ⟨fun i cv h => ⟨rfl, ?_⟩, ?_⟩
  · simp only [expandT, shrinkT, Ty.returnable, Ty.callType, CV.empty, Bool.not_false, Bool.and_true, if_true, ne_eq,
      Option.some.injEq, Ty.scalar.injEq, true_and]
    exact fun h' => h h'.symm
  · rintro t (⟨e, n, cv, rfl⟩ | ⟨i, q, rfl⟩) <;> simp [expandT, shrinkT, Ty.returnable]

/-! ## C71 — `type_lookup_t` for types -/

/-- A key bound to one type gives that type and an unbound key the default, if these are classes, references or unqualified. Missing:
see the next theorem. -/
theorem C71_types_partial {κ : Type} [DecidableEq κ] (m : List (κ × Ty)) (hm : m.Nodup) (k : κ) (d : Ty) :
    (∀ v, (k, v) ∈ m → (∀ w, (k, w) ∈ m → w = v) → Expandable v → lookupType m k d = some v) ∧
    ((∀ v, (k, v) ∉ m) → Expandable d → lookupType m k d = some d) := by
  have hr : ∀ t, Expandable t → t.returnable = true ∧ t.callType = t := by
    intro t ht
    cases t <;> simp_all [Expandable, Ty.returnable, Ty.callType, CV.empty]
  constructor
  · intro v hv hu he
    have hf : (m.filter fun p => decide (p.1 = k)) = [(k, v)] := by
      have hn := hm.filter fun p => decide (p.1 = k)
      have hall : ∀ p ∈ m.filter fun p => decide (p.1 = k), p = (k, v) := by
        rintro ⟨a, b⟩ hp
        simp only [List.mem_filter, decide_eq_true_eq] at hp
        obtain ⟨h1, rfl⟩ := hp
        rw [hu b h1]
      have hin : (k, v) ∈ m.filter fun p => decide (p.1 = k) := by simp [hv]
      match hl : m.filter fun p => decide (p.1 = k) with
      | [] => rw [hl] at hin; simp at hin
      | [p] => rw [hl] at hall; rw [hl, hall p (by simp)]
      | p :: q :: r =>
        rw [hl] at hall hn
        rw [hall p (by simp), hall q (by simp)] at hn
        simp at hn
    simp [lookupType, hm, hf, hr v he]
  · intro h he
    have hf : (m.filter fun p => decide (p.1 = k)) = [] := by
      rw [List.filter_eq_nil_iff]
      rintro ⟨a, b⟩ hp
      simp only [decide_eq_true_eq]
      rintro rfl
      exact h b hp
    simp [lookupType, hm, hf, hr d he]

example : ([(0, .scalar 1 ⟨false, false⟩), (1, .lref (.scalar 1 ⟨true, false⟩))] : List (Nat × Ty)).Nodup ∧
    Expandable (.lref (.scalar 1 ⟨true, false⟩)) := ⟨by decide, trivial⟩

/-- A key bound to a qualified scalar gives the unqualified one; one bound to an array or a function gives the default. -/
theorem C71_types_violated (d : Ty) (hd : Expandable d) :
    (∀ i cv, cv ≠ ⟨false, false⟩ → lookupType [(0, .scalar i cv)] 0 d = some (.scalar i ⟨false, false⟩)) ∧
    (∀ e n cv, lookupType [(0, .array e n cv)] 0 d = some d) ∧ (∀ i q, lookupType [(0, .func i q)] 0 d = some d) := by
  refine ⟨fun i cv _ => rfl, fun e n cv => ?_, fun i q => ?_⟩ <;>
    cases d <;> simp_all [lookupType, Expandable, Ty.returnable, Ty.callType, CV.empty]

example : Expandable (.void ⟨false, false⟩) := rfl

/-! ## C91 — `template_for_each`, `apply_sequence`, `nth_t`, sequences -/

/-- The elements a list stands for: a sequence made for `n` has `0, …, n - 1`. -/
def elements : TList → Option (List TArg)
  | .types ts => some (ts.map .type)
  | .values vs => some (vs.map .value)
  | .integers vs => some (vs.map .value)
  | .makeSequence n => some ((List.range n).map fun (i : Nat) => .value (i : Int))
  | .other => none

/-- `template_for_each` calls the function once for each element, in order, whatever it does, and `apply_sequence` once with all of
them. Missing: `stdx::make_integer_sequence`, see the next theorem. -/
theorem C91_in_order_partial (l : TList) (h : ∀ n, l ≠ .makeSequence n) {σ β : Type} (f : TArg → σ → σ) (g : List TArg → β) (s : σ) :
    templateForEach l f s = (elements l).map (List.foldl (fun s a => f a s) s) ∧ applySequence l g = (elements l).map g := by
  have hf : ∀ (p : List TArg) (s : σ), callEach f p s = p.foldl (fun s a => f a s) s := by
    intro p
    induction p with
    | nil => intro s; rfl
    | cons a p ih => intro s; simp [callEach, ih]
  cases l with
  | makeSequence n => exact absurd rfl (h n)
  | _ => simp [templateForEach, applySequence, TList.pack, elements, hf]

example : ∀ n, (TList.values [3, 1, 2]) ≠ .makeSequence n := nofun

/-- For a sequence made by `stdx::make_integer_sequence<T, N>` there is always one call, with `N`, which is not an element, instead of
`N` calls; and `apply_sequence` gives `N` alone. -/
theorem C91_make_sequence_violated (n : Nat) :
    (∀ {σ : Type} (f : TArg → σ → σ) (s : σ), templateForEach (.makeSequence n) f s = some (f (.value n) s)) ∧
    (∀ {β : Type} (g : List TArg → β), applySequence (.makeSequence n) g = some (g [.value n])) ∧
    (∃ p, elements (.makeSequence n) = some p ∧ p.length = n ∧ TArg.value n ∉ p) := by
  refine ⟨fun f s => rfl, fun g => rfl, _, rfl, by simp, ?_⟩
  simp only [List.mem_map, List.mem_range, not_exists, not_and, TArg.value.injEq]
  intro i hi h
  omega

/-- `nth_t` and `nth_v` are the element at the index, and nothing beyond the last. -/
theorem C91_nth {α : Type} (pre post : List α) (a : α) (n : Nat) :
    nth pre.length (pre ++ a :: post) = some a ∧ (nth n pre = none ↔ pre.length ≤ n) := by
  simp [nth]

/-- As a tuple, a sequence made for `n` has `n` elements, the `i`-th of them `i`, by `get` and in `tuple_element_t`. -/
theorem C91_sequence_tuple (n i : Nat) (p : List TArg) (hp : elements (.makeSequence n) = some p) :
    seqSize n = p.length ∧ ((seqElement n i).map fun k => TArg.value k) = p[i]? ∧
      (i < n → ((seqGet n i).map fun k => TArg.value k) = p[i]?) := by
  simp only [elements, Option.some.injEq] at hp
  subst hp
  refine ⟨by simp [seqSize], ?_, fun h => by simp [seqGet, h]⟩
  by_cases h : i < n <;> simp [seqElement, h]

example : (2 : Nat) < 3 ∧ (elements (.makeSequence 3)).isSome := ⟨by decide, rfl⟩

/-! ## C92 — `make_array` -/

theorem mapM_some_iff {α β : Type} (f : α → Option β) (l : List α) (r : List β) :
    l.mapM f = some r ↔ r.length = l.length ∧ ∀ (i : Nat) (a : α), l[i]? = some a → f a = r[i]? := by
  induction l generalizing r with
  | nil =>
    simp only [List.mapM_nil, List.length_nil, List.getElem?_nil]
    constructor
    · intro h
      cases h
      exact ⟨rfl, nofun⟩
    · rintro ⟨h, -⟩
      rw [List.length_eq_zero_iff.1 h]
      rfl
  | cons a l ih =>
    simp only [List.mapM_cons, Option.bind_eq_bind, Option.bind_eq_some_iff, Option.pure_def, Option.some.injEq]
    constructor
    · rintro ⟨b, hb, bs, hbs, rfl⟩
      obtain ⟨hl, hi⟩ := (ih bs).1 hbs
      refine ⟨by simp [hl], fun i x hx => ?_⟩
      cases i with
      | zero => simp at hx; subst hx; simp [hb]
      | succ i => simp at hx; simpa using hi i x hx
    · rintro ⟨hl, hi⟩
      cases r with
      | nil => simp at hl
      | cons b bs =>
        refine ⟨b, by simpa using hi 0 a rfl, bs, (ih bs).2 ⟨by simpa using hl, fun i x hx => ?_⟩, rfl⟩
        simpa using hi (i + 1) x (by simpa using hx)

theorem mapM_none_iff {α β : Type} (f : α → Option β) (l : List α) : l.mapM f = none ↔ ∃ a ∈ l, f a = none := by
  induction l with
  | nil => simp
  | cons a l ih =>
    simp only [List.mapM_cons, Option.bind_eq_bind, List.mem_cons, exists_eq_or_imp, ← ih]
    cases f a with
    | none => simp
    | some b => cases h : l.mapM f <;> simp

/-- With an element type given, or a common type, the array has one element for each argument, in order, the conversion of that
argument; the call is rejected only if a conversion is. -/
theorem C92_arguments {τ ν : Type} (conv : τ → τ × ν → Option ν) (common : List τ → Option τ) (int a : τ) (d : Option τ)
    (args : List (τ × ν))
    (ha : match d with
      | some d => a = d
      | none => if args = [] then a = int else common (args.map (·.1)) = some a) :
    (∀ r, makeArray conv common int d args = some r ↔
      r.1 = a ∧ r.2.length = args.length ∧ ∀ (i : Nat) (x : τ × ν), args[i]? = some x → conv a x = r.2[i]?) ∧
    (makeArray conv common int d args = none ↔ ∃ x ∈ args, conv a x = none) := by
  have hm : makeArray conv common int d args = (args.mapM (conv a)).map (a, ·) := by
    cases d with
    | some d => simp only at ha; subst ha; rfl
    | none =>
      by_cases h : args = []
      · subst h; simp only [if_true] at ha; subst ha; rfl
      · simp only [h, if_false] at ha
        have : ¬ args.length = 0 := by simpa using h
        simp [makeArray, this, ha]
  rw [hm]
  constructor
  · rintro ⟨t, vs⟩
    simp only [Option.map_eq_some_iff, Prod.mk.injEq]
    constructor
    · rintro ⟨ws, hw, rfl, rfl⟩
      exact ⟨rfl, (mapM_some_iff _ _ _).1 hw⟩
    · rintro ⟨rfl, h⟩
      exact ⟨vs, (mapM_some_iff _ _ _).2 h, rfl, rfl⟩
  · rw [Option.map_eq_none_iff, mapM_none_iff]

/-- The values `0 … n-1` or those of the sequence are each used for one call, in order, and the array holds the results in that
order; results of the type of the result for 0 are all accepted. -/
theorem C92_calls {τ ν σ : Type} (conv : τ → τ × ν → Option ν) (hconv : ∀ t v, conv t (t, v) = some v) (t : τ)
    (f : Int → σ → ν × σ) (is : List Int) (s : σ) :
    makeArraySeq conv (fun _ => some t) f is s =
      some ((t, (is.foldl (fun acc i => (acc.1 ++ [(f i acc.2).1], (f i acc.2).2)) (([] : List ν), s)).1),
        (is.foldl (fun acc i => (acc.1 ++ [(f i acc.2).1], (f i acc.2).2)) (([] : List ν), s)).2) := by
  have hc : ∀ (is : List Int) (s : σ) (l : List ν),
      is.foldl (fun acc i => (acc.1 ++ [(f i acc.2).1], (f i acc.2).2)) (l, s) =
        (l ++ (callIndices f is s).1, (callIndices f is s).2) := by
    intro is
    induction is with
    | nil => intro s l; simp [callIndices]
    | cons i is ih => intro s l; simp [callIndices, ih]
  have hl : ∀ (is : List Int) (s : σ), (callIndices f is s).1.length = is.length := by
    intro is
    induction is with
    | nil => intro s; rfl
    | cons i is ih => intro s; simp [callIndices, ih]
  have ht : is.mapM (fun _ => some t) = some (List.replicate is.length t) := by
    rw [mapM_some_iff]
    refine ⟨by simp, fun i a h => ?_⟩
    obtain ⟨h', -⟩ := List.getElem?_eq_some_iff.1 h
    simp [h']
  have hz : ∀ (n : Nat) (vs : List ν), vs.length = n → ((List.replicate n t).zip vs).mapM (conv t) = some vs := by
    intro n vs hn
    rw [mapM_some_iff]
    refine ⟨by simp [hn], fun i x hx => ?_⟩
    simp only [List.getElem?_zip_eq_some] at hx
    obtain ⟨h1, h2⟩ := hx
    have h1 : x.1 = t := List.eq_of_mem_replicate (List.mem_of_getElem? h1)
    obtain ⟨a, b⟩ := x
    simp only at h1
    subst h1
    rw [hconv, h2]
  simp [makeArraySeq, ht, hz _ _ (hl is s), hc]

/-- `make_array<N>(f)` is the same for the indices below `N`. -/
theorem C92_below {τ ν : Type} (conv : τ → τ × ν → Option ν) (hconv : ∀ t v, conv t (t, v) = some v) (t : τ) (f : Int → ν) (n : Nat) :
    makeArrayN conv (fun _ => some t) (fun i (l : List Int) => (f i, l ++ [i])) n [] =
      some ((t, (List.range n).map fun i => f (Int.ofNat i)), (List.range n).map Int.ofNat) := by
  rw [makeArrayN, C92_calls conv hconv]
  have hc : ∀ (is : List Int) (a : List ν) (l : List Int),
      is.foldl (fun (acc : List ν × List Int) i => (acc.1 ++ [(f i, acc.2 ++ [i]).1], (f i, acc.2 ++ [i]).2)) (a, l) =
        (a ++ is.map f, l ++ is) := by
    intro is
    induction is with
    | nil => intro a l; simp
    | cons i is ih => intro a l; simp [ih]
  rw [hc]
  simp [Function.comp_def]

example : ∀ (t : ITy) (v : Int), ITy.listInit t (t, v) = some v := by
  rintro ⟨s, w⟩ v; cases s <;> simp [ITy.listInit, ITy.within]

/-- A representable value of a type is one of any type it is within, so that list initialisation never changes a value. -/
theorem within_rep (t d : ITy) (h : t.within d = true) (v : Int) (hv : t.Rep v) : d.Rep v := by
  obtain ⟨ts, tw⟩ := t
  obtain ⟨ds, dw⟩ := d
  have pw : ∀ a b : Nat, a ≤ b → (2 : Int) ^ a ≤ 2 ^ b := fun a b hab => by
    exact_mod_cast Nat.pow_le_pow_right (by decide) hab
  cases ts <;> cases ds <;> simp only [ITy.within, decide_eq_true_eq, Bool.false_eq_true] at h <;>
    simp only [ITy.Rep, if_true, Bool.false_eq_true, if_false] at hv ⊢
  · have := pw tw dw h; omega
  · have := pw tw (dw - 1) (by omega)
    have h0 : (0 : Int) ≤ 2 ^ (dw - 1) := by positivity
    omega
  · have := pw (tw - 1) (dw - 1) (by omega); omega

/-- The running common type of types of one signedness has it and is as wide as all so far, or is `int` by promotion. -/
theorem common_inv (sg : Bool) (ts done : List ITy) (acc : ITy) (hs : ∀ t ∈ ts, t.signed = sg)
    (h : (acc.signed = sg ∧ ∀ t ∈ done, t.width ≤ acc.width) ∨ (acc = ⟨true, 32⟩ ∧ ∀ t ∈ done, t.width < 32)) :
    ((ts.foldl ITy.common acc).signed = sg ∧ ∀ t ∈ done ++ ts, t.width ≤ (ts.foldl ITy.common acc).width) ∨
      (ts.foldl ITy.common acc = ⟨true, 32⟩ ∧ ∀ t ∈ done ++ ts, t.width < 32) := by
  induction ts generalizing done acc with
  | nil => simpa using h
  | cons u ts ih =>
    have hu := hs u (by simp)
    have step : ((acc.common u).signed = sg ∧ ∀ t ∈ done ++ [u], t.width ≤ (acc.common u).width) ∨
        (acc.common u = ⟨true, 32⟩ ∧ ∀ t ∈ done ++ [u], t.width < 32) := by
      rcases h with ⟨h1, h2⟩ | ⟨h1, h2⟩
      · have key : ((acc.common u).signed = sg ∧ acc.width ≤ (acc.common u).width ∧ u.width ≤ (acc.common u).width) ∨
            (acc.common u = ⟨true, 32⟩ ∧ acc.width < 32 ∧ u.width < 32) := by
          obtain ⟨us, uw⟩ := u; obtain ⟨as, aw⟩ := acc
          simp only at hu h1
          subst hu; subst h1
          by_cases ha : aw < 32 <;> by_cases hb : uw < 32 <;> by_cases hc : aw = uw <;> cases as <;>
            simp [ITy.common, ITy.promote, ha, hb, hc] <;> (try split_ifs) <;> (try simp) <;> omega
        rcases key with ⟨k1, k2, k3⟩ | ⟨k1, k2, k3⟩
        · refine .inl ⟨k1, fun t ht => ?_⟩
          rcases List.mem_append.1 ht with ht | ht
          · exact (h2 t ht).trans k2
          · simp only [List.mem_singleton] at ht; subst ht; exact k3
        · refine .inr ⟨k1, fun t ht => ?_⟩
          rcases List.mem_append.1 ht with ht | ht
          · exact (h2 t ht).trans_lt k2
          · simp only [List.mem_singleton] at ht; subst ht; exact k3
      · have key : ((acc.common u).signed = sg ∧ 32 ≤ (acc.common u).width ∧ u.width ≤ (acc.common u).width) ∨
            (acc.common u = ⟨true, 32⟩ ∧ u.width < 32) := by
          obtain ⟨us, uw⟩ := u
          simp only at hu
          subst hu; subst h1
          by_cases hb : uw < 32 <;> by_cases hc : uw = 32 <;> cases us <;>
            simp [ITy.common, ITy.promote, hb, hc] <;> (try split_ifs) <;> (try simp) <;> omega
        rcases key with ⟨k1, k2, k3⟩ | ⟨k1, k3⟩
        · refine .inl ⟨k1, fun t ht => ?_⟩
          rcases List.mem_append.1 ht with ht | ht
          · exact (h2 t ht).le.trans k2
          · simp only [List.mem_singleton] at ht; subst ht; exact k3
        · refine .inr ⟨k1, fun t ht => ?_⟩
          rcases List.mem_append.1 ht with ht | ht
          · exact h2 t ht
          · simp only [List.mem_singleton] at ht; subst ht; exact k3
    have := ih (done ++ [u]) (acc.common u) (fun t ht => hs t (by simp [ht])) step
    simpa using this

/-- Integers of types of one signedness, without an element type given, are all accepted and keep their values, whatever their
widths. Missing: mixed signedness, see the next theorem. -/
theorem C92_integers_partial (sg : Bool) (args : List (ITy × Int)) (h : ∀ x ∈ args, x.1.signed = sg) :
    ∃ a, makeArray ITy.listInit ITy.commonAll ⟨true, 32⟩ none args = some (a, args.map (·.2)) ∧
      ∀ x ∈ args, x.1.Rep x.2 → a.Rep x.2 := by
  have hw : ∀ (ts : List ITy) (t : ITy), (∀ x ∈ t :: ts, x.signed = sg) →
      ∀ x ∈ t :: ts, x.within (ts.foldl ITy.common t) = true := by
    intro ts t hs x hx
    have hx' := hs x hx
    obtain ⟨b, w⟩ := x
    simp only at hx'
    subst hx'
    rcases common_inv b ts [t] t (fun y hy => hs y (by simp [hy])) (.inl ⟨hs t (by simp), by simp⟩) with ⟨h1, h2⟩ | ⟨h1, h2⟩
    · have := h2 _ hx
      cases b <;> simp [ITy.within, h1, this]
    · have := h2 _ hx
      simp only at this
      rw [h1]
      cases b <;> simp [ITy.within] <;> omega
  have conv : ∀ (a : ITy) (l : List (ITy × Int)), (∀ x ∈ l, x.1.within a = true) → l.mapM (ITy.listInit a) = some (l.map (·.2)) := by
    intro a l hl
    rw [mapM_some_iff]
    refine ⟨by simp, fun i x hx => ?_⟩
    have := hl x (List.mem_of_getElem? hx)
    simp [ITy.listInit, this, hx]
  cases args with
  | nil => exact ⟨⟨true, 32⟩, rfl, by simp⟩
  | cons y ys =>
    have hin : ∀ x ∈ y :: ys, x.1.within ((ys.map (·.1)).foldl ITy.common y.1) = true := fun x hx =>
      hw (ys.map (·.1)) y.1 (by
        intro z hz
        have hz : z ∈ (y :: ys).map (·.1) := by simpa using hz
        obtain ⟨q, hq, rfl⟩ := List.mem_map.1 hz
        exact h q hq) x.1 (by
          have : x.1 ∈ (y :: ys).map (·.1) := List.mem_map_of_mem hx
          simpa using this)
    refine ⟨_, ?_, fun x hx hr => within_rep x.1 _ (hin x hx) x.2 hr⟩
    have := conv _ _ hin
    simp only [makeArray, List.length_cons, Nat.add_eq_zero_iff, Nat.one_ne_zero, and_false, if_false, List.map_cons, ITy.commonAll,
      Option.bind_some]
    rw [this]
    rfl

/-- A `short`, a `long` and an `int`. -/
example : ∀ x ∈ ([(⟨true, 16⟩, -3), (⟨true, 64⟩, 5), (⟨true, 32⟩, 0)] : List (ITy × Int)), x.1.signed = true := by simp

/-- `make_array(i, u)` for an `int` or wider signed type and an unsigned type of that width or wider is rejected, because of the signed
argument. -/
theorem C92_mixed_sign_violated (w w' : Nat) (h : 32 ≤ w) (h' : w ≤ w') (i u : Int) :
    makeArray ITy.listInit ITy.commonAll ⟨true, 32⟩ none [(⟨true, w⟩, i), (⟨false, w'⟩, u)] = none := by
  have h1 : ¬ w < 32 := by omega
  have h2 : ¬ w' < 32 := by omega
  have h3 : ¬ w' < w := by omega
  simp [makeArray, ITy.commonAll, ITy.common, ITy.promote, h1, h2, h3, ITy.listInit, ITy.within]

/-- A signed type that is wider than the other one, and at least an `int`, takes the values of both, in either order. -/
theorem C92_mixed_sign_wider (w w' : Nat) (h : 32 ≤ w) (h' : w' < w) (i u : Int) :
    makeArray ITy.listInit ITy.commonAll ⟨true, 32⟩ none [(⟨true, w⟩, i), (⟨false, w'⟩, u)] = some (⟨true, w⟩, [i, u]) ∧
    makeArray ITy.listInit ITy.commonAll ⟨true, 32⟩ none [(⟨false, w'⟩, u), (⟨true, w⟩, i)] = some (⟨true, w⟩, [u, i]) := by
  have h1 : ¬ w < 32 := by omega
  by_cases h2 : w' < 32
  · by_cases h3 : w = 32
    · subst h3
      simp [makeArray, ITy.commonAll, ITy.common, ITy.promote, h2, ITy.listInit, ITy.within]
    · have h4 : ¬ w < 32 := h1
      have h5 : 32 < w := by omega
      simp [makeArray, ITy.commonAll, ITy.common, ITy.promote, h1, h2, h5, h', ITy.listInit, ITy.within, show ¬ 32 = w by omega]
  · simp [makeArray, ITy.commonAll, ITy.common, ITy.promote, h1, h2, h', ITy.listInit, ITy.within]

/-- A `long` and an `unsigned int`; an `int` and an `unsigned short`. -/
example : makeArray ITy.listInit ITy.commonAll ⟨true, 32⟩ none [(⟨true, 64⟩, -1), (⟨false, 32⟩, 7)] = some (⟨true, 64⟩, [-1, 7]) ∧
    makeArray ITy.listInit ITy.commonAll ⟨true, 32⟩ none [(⟨false, 16⟩, 7), (⟨true, 32⟩, -1)] = some (⟨true, 32⟩, [7, -1]) := by decide

/-- The function must have a result for 0 even if 0 is not in the sequence. -/
theorem C92_zero_required_violated {τ ν σ : Type} (conv : τ → τ × ν → Option ν) (ty : Int → Option τ) (h : ty 0 = none)
    (f : Int → σ → ν × σ) (is : List Int) (s : σ) : makeArraySeq conv ty f is s = none := by
  simp [makeArraySeq, h]

/-! ## C93 — `as_unsigned`, `as_signed` -/

/-- What a conversion from a value `v` of type `t` to the type of the same width and given signedness must give: a value of that type,
equal to `v` modulo the number of values, and so `v` itself if the type has it. -/
def Converted (t : ITy) (v : Int) (sg : Bool) (r : ITy × Int) : Prop :=
  r.1 = ⟨sg, t.width⟩ ∧ r.1.Rep r.2 ∧ (∃ k : Int, r.2 = v + k * 2 ^ t.width) ∧ ((⟨sg, t.width⟩ : ITy).Rep v → r.2 = v)

/-- Both conversions exist for every type but `bool`, are the conversion modulo `2 ^ width`, and undo each other. -/
theorem C93_conversions (t : ITy) (v : Int) (hw : 0 < t.width) (hv : t.Rep v) :
    (∃ r, asUnsigned false t v = some r ∧ Converted t v false r ∧
      ((asSigned false r.1 r.2).map (·.2) = some v ∨ t.signed = false)) ∧
    (∃ r, asSigned false t v = some r ∧ Converted t v true r ∧
      ((asUnsigned false r.1 r.2).map (·.2) = some v ∨ t.signed = true)) ∧
    asUnsigned true t v = none ∧ asSigned true t v = none := by
  obtain ⟨s, w⟩ := t
  obtain ⟨n, rfl⟩ : ∃ n, w = n + 1 := ⟨w - 1, by simp at hw; omega⟩
  have hp : (2 : Int) ^ (n + 1) = 2 * 2 ^ n := by rw [pow_succ]; ring
  have h0 : (0 : Int) < 2 ^ n := by positivity
  have he : ((2 ^ (n + 1) : Nat) : Int) = 2 ^ (n + 1) := by push_cast; rfl
  have hm0 := Int.emod_nonneg v (show (2 : Int) ^ (n + 1) ≠ 0 by omega)
  have hm1 := Int.emod_lt_of_pos v (show (0 : Int) < 2 ^ (n + 1) by omega)
  have hb0 : ∀ x : Int, -2 ^ n ≤ x.bmod (2 ^ (n + 1)) := fun x => by
    have := Int.le_bmod (x := x) (m := 2 ^ (n + 1)) (by positivity)
    rw [he, hp] at this
    omega
  have hb1 : ∀ x : Int, x.bmod (2 ^ (n + 1)) < 2 ^ n := fun x => by
    have := Int.bmod_lt (x := x) (m := 2 ^ (n + 1)) (by positivity)
    rw [he, hp] at this
    omega
  have hbv : ∀ x : Int, -2 ^ n ≤ x → x < 2 ^ n → x.bmod (2 ^ (n + 1)) = x := fun x h1 h2 => by
    apply Int.bmod_eq_of_le <;> rw [he, hp] <;> omega
  have hmv : ∀ x : Int, 0 ≤ x → x < 2 ^ (n + 1) → x % 2 ^ (n + 1) = x := fun x h1 h2 => Int.emod_eq_of_lt h1 h2
  have hbk : ∃ k : Int, v.bmod (2 ^ (n + 1)) = v + k * 2 ^ (n + 1) := by
    refine ⟨-v.bdiv (2 ^ (n + 1)), ?_⟩
    have := Int.bmod_add_bdiv v (2 ^ (n + 1))
    rw [he] at this
    linarith
  have hmk : ∃ k : Int, v % 2 ^ (n + 1) = v + k * 2 ^ (n + 1) := by
    refine ⟨-(v / 2 ^ (n + 1)), ?_⟩
    have := Int.emod_add_mul_ediv v (2 ^ (n + 1))
    linarith
  have h1 : Converted ⟨s, n + 1⟩ v false (⟨false, n + 1⟩, v % 2 ^ (n + 1)) :=
    ⟨rfl, by simpa [ITy.Rep] using ⟨hm0, hm1⟩, hmk, fun h => by
      simp only [ITy.Rep, Bool.false_eq_true, if_false] at h
      exact hmv v h.1 h.2⟩
  have h2 : Converted ⟨s, n + 1⟩ v true (⟨true, n + 1⟩, v.bmod (2 ^ (n + 1))) :=
    ⟨rfl, by simpa [ITy.Rep] using ⟨hb0 v, hb1 v⟩, hbk, fun h => by
      simp only [ITy.Rep, if_true, Nat.add_sub_cancel] at h
      exact hbv v h.1 h.2⟩
  refine ⟨⟨_, rfl, h1, ?_⟩, ⟨_, rfl, h2, ?_⟩, rfl, rfl⟩
  · cases s
    · exact .inr rfl
    · left
      simp only [ITy.Rep, if_true, Nat.add_sub_cancel] at hv
      have : (v % 2 ^ (n + 1)).bmod (2 ^ (n + 1)) = v.bmod (2 ^ (n + 1)) := by
        have := Int.emod_bmod (x := v) (n := 2 ^ (n + 1))
        rwa [he] at this
      simp [asSigned, this, hbv v hv.1 hv.2]
  · cases s
    · left
      simp only [ITy.Rep, Bool.false_eq_true, if_false] at hv
      have : (v.bmod (2 ^ (n + 1))) % 2 ^ (n + 1) = v % 2 ^ (n + 1) := by
        have := Int.bmod_emod (x := v) (m := 2 ^ (n + 1))
        rwa [he] at this
      simp [asUnsigned, this, hmv v hv.1 hv.2]
    · exact .inr rfl

/-- -1 as a 16-bit integer. -/
example : (0 : Nat) < (⟨true, 16⟩ : ITy).width ∧ (⟨true, 16⟩ : ITy).Rep (-1) ∧ asUnsigned false ⟨true, 16⟩ (-1) = some (⟨false, 16⟩, 65535) :=
  ⟨by decide, by simp [ITy.Rep], by decide⟩

/-! ## C94 — `CT_WRAP`, `CX_WRAP` -/

/-- The value of a wrapped argument. -/
def Wrapped.value : Wrapped ν → ν
  | .same v => v
  | .ct v => v
  | .cx v => v

/-- The value is available at compile time: it was so wrapped, or its type carries it. -/
def Wrapped.compileTime (typed : Bool) : Wrapped ν → Prop
  | .same _ => typed = true
  | .ct _ => True
  | .cx _ => True

/-- The argument comes back as it is, not wrapped again. -/
def Wrapped.Unchanged : Wrapped ν → Prop
  | .same _ => True
  | .ct _ => False
  | .cx _ => False

/-- `CX_WRAP` accepts every expression, keeps its value, and makes it available at compile time exactly if its evaluation is constant
or its type already carries the value, in which case it is returned as it is. -/
theorem C94_cx_wrap {ν : Type} (e : Expr ν) :
    ∃ w, cxWrap e = some w ∧ w.value = e.val ∧ (w.compileTime (e.isCx || e.empty) ↔ e.isCx || e.empty || e.constant) ∧
      (w.Unchanged ↔ e.isCx || e.empty || !e.constant) := by
  obtain ⟨v, ct, cx, em, st, co, ca⟩ := e
  cases cx <;> cases em <;> cases co <;> simp [cxWrap, Wrapped.value, Wrapped.compileTime, Wrapped.Unchanged]

/-- `CT_WRAP` likewise, if the expression is constant and of structural type or uses a local variable. Missing: other expressions, see the next
theorem. -/
theorem C94_ct_wrap_partial {ν : Type} (e : Expr ν) (h : e.isCt = true ∨ (e.constant = true ∧ e.structural = true) ∨ e.captures = true) :
    ∃ w, ctWrap e = some w ∧ w.value = e.val ∧ (w.compileTime e.isCt ↔ e.isCt || (e.constant && e.structural)) ∧
      (w.Unchanged ↔ e.isCt || !(e.constant && e.structural)) := by
  obtain ⟨v, ct, cx, em, st, co, ca⟩ := e
  cases ct <;> cases st <;> cases co <;> cases ca <;> simp_all [ctWrap, Wrapped.value, Wrapped.compileTime, Wrapped.Unchanged]

/-- A local variable that is not constant, and a literal. -/
example : (⟨7, false, false, false, true, false, true⟩ : Expr Int).captures = true ∧
    (⟨7, false, false, false, true, true, false⟩ : Expr Int).constant = true := ⟨rfl, rfl⟩

/-- An expression that uses no local variable but is not constant (a call, a variable of static storage), or is constant but not of a
structural type, is not accepted by `CT_WRAP`, although `CX_WRAP` accepts it. -/
theorem C94_ct_wrap_static_violated {ν : Type} (e : Expr ν) (h : e.isCt = false) (hc : e.captures = false)
    (hn : e.constant = false ∨ e.structural = false) : ctWrap e = none ∧ (cxWrap e).isSome := by
  obtain ⟨v, ct, cx, em, st, co, ca⟩ := e
  simp only at h hc hn
  subst h hc
  cases cx <;> cases em <;> cases st <;> cases co <;> simp_all [ctWrap, cxWrap]

example : (⟨7, false, false, false, true, false, false⟩ : Expr Int).constant = false := rfl

end Verif.Meta
