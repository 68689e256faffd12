import Verif.Optional.Traits

/-! # Tombstones of product types, and unpacking (C95, C96) -/

namespace Verif.Opt

/-! ## C95 -/

/-- The element types of a tuple-like type. -/
def elementTypes : VTy → Option (List VTy)
  | .templ true _ args => some args
  | .array e n => some (List.replicate n e)
  | _ => none

theorem tombstones_some (ts : List VTy) (vs : List TVal) :
    tombstone.tombstones ts = some vs ↔ vs.length = ts.length ∧ ∀ (i : Nat) (t : VTy), ts[i]? = some t → tombstone t = vs[i]? := by
  induction ts generalizing vs with
  | nil =>
    simp only [tombstone.tombstones, Option.some.injEq, List.length_nil, List.getElem?_nil]
    constructor
    · rintro rfl; exact ⟨rfl, nofun⟩
    · rintro ⟨h, -⟩; exact (List.length_eq_zero_iff.1 h).symm
  | cons t ts ih =>
    simp only [tombstone.tombstones, Option.bind_eq_bind, Option.bind_eq_some_iff, Option.pure_def, Option.some.injEq]
    constructor
    · rintro ⟨v, hv, vs', hvs, rfl⟩
      obtain ⟨hl, hi⟩ := (ih vs').1 hvs
      refine ⟨by simp [hl], fun i x hx => ?_⟩
      cases i with
      | zero => simp at hx; subst hx; simpa using hv
      | succ i => simpa using hi i x (by simpa using hx)
    · rintro ⟨hl, hi⟩
      cases vs with
      | nil => simp at hl
      | cons v vs =>
        exact ⟨v, by simpa using hi 0 t rfl, vs, (ih vs).2 ⟨by simpa using hl, fun i x hx => by simpa using hi (i + 1) x (by simpa using hx)⟩,
          rfl⟩

theorem tombstones_isSome (ts : List VTy) : (tombstone.tombstones ts).isSome ↔ ∀ t ∈ ts, (tombstone t).isSome := by
  induction ts with
  | nil => simp [tombstone.tombstones]
  | cons t ts ih =>
    simp only [tombstone.tombstones, List.mem_cons, forall_eq_or_imp, ← ih]
    cases tombstone t <;> cases tombstone.tombstones ts <;> simp

/-- **C95, product types.** A tuple or pair of at least one type has a tombstone exactly if every element has one; it is
made of their tombstones, in order, at every depth of nesting. Missing: `std::array`, see the next theorem. -/
theorem C95_product_partial (args : List VTy) (ha : args ≠ []) (tl : Bool) :
    ((tombstone (.templ tl true args)).isSome ↔ ∀ t ∈ args, (tombstone t).isSome) ∧
    (∀ v, tombstone (.templ tl true args) = some v ↔
      ∃ vs, v = .node vs ∧ vs.length = args.length ∧ ∀ (i : Nat) (t : VTy), args[i]? = some t → tombstone t = vs[i]?) ∧
    (usable (.templ tl true args) ↔ ∀ t ∈ args, (tombstone t).isSome) := by
  have he : args.isEmpty = false := by cases args <;> simp_all
  have hs : (tombstone (.templ tl true args)).isSome ↔ ∀ t ∈ args, (tombstone t).isSome := by
    simp [tombstone, he, tombstones_isSome]
  refine ⟨hs, fun v => ?_, hs⟩
  simp only [tombstone, he, Bool.not_false, Bool.and_true, if_true, Option.map_eq_some_iff]
  constructor
  · rintro ⟨vs, h, rfl⟩
    exact ⟨vs, rfl, (tombstones_some args vs).1 h⟩
  · rintro ⟨vs, rfl, h⟩
    exact ⟨vs, (tombstones_some args vs).2 h, rfl⟩

/-- A pair of a float and a tuple of a pointer, and a tuple with an integer. -/
example : (tombstone (.templ true true [.floating, .templ true true [.pointer]])).isSome = true ∧
    (tombstone (.templ true true [.floating, .integral])).isSome = false := ⟨rfl, rfl⟩

/-- The types with a tombstone, as the documentation lists them: floating-point types, pointers, types with their own traits, and what is
made of such types. -/
inductive Documented : VTy → Prop
  | floating : Documented .floating
  | pointer : Documented .pointer
  | own (n : Nat) : Documented (.own (some n))
  | product (tl : Bool) (t : VTy) (ts : List VTy) : Documented t → (∀ u ∈ ts, Documented u) → Documented (.templ tl true (t :: ts))

/-- Those and no others have a tombstone. -/
theorem tombstone_documented (t : VTy) : (tombstone t).isSome ↔ Documented t := by
  constructor
  · intro h
    exact go t h
  · intro h
    induction h with
    | floating => rfl
    | pointer => rfl
    | own n => rfl
    | product tl t ts _ _ h1 h2 =>
      rw [(C95_product_partial (t :: ts) (by simp) tl).1]
      intro u hu
      rcases List.mem_cons.1 hu with rfl | hu
      · exact h1
      · exact h2 u hu
where
  go : (t : VTy) → (tombstone t).isSome → Documented t
    | .floating, _ => .floating
    | .pointer, _ => .pointer
    | .integral, h => by simp [tombstone] at h
    | .own none, h => by simp [tombstone] at h
    | .own (some n), _ => .own n
    | .array _ _, h => by simp [tombstone] at h
    | .templ tl false args, h => by simp [tombstone] at h
    | .templ tl true [], h => by simp [tombstone] at h
    | .templ tl true (t :: ts), h => by
      have h' := (C95_product_partial (t :: ts) (by simp) tl).1.1 h
      exact .product tl t ts (go t (h' t (by simp))) fun u hu => go u (h' u (by simp [hu]))
  termination_by t => sizeOf t
  decreasing_by
    all_goals simp_wf
    · omega
    · have := List.sizeOf_lt_of_mem hu
      omega

/-- **C95, at every depth.** Those and no others have a tombstone, and an optional with the default traits can be made of those and no
others (so not of an integer). -/
theorem C95_types (t : VTy) : ((tombstone t).isSome ↔ Documented t) ∧ (usable t ↔ Documented t) := by
  refine ⟨tombstone_documented t, ?_⟩
  cases t with
  | integral => exact ⟨nofun, nofun⟩
  | floating => exact tombstone_documented .floating
  | pointer => exact tombstone_documented .pointer
  | own s => exact tombstone_documented (.own s)
  | templ a b c => exact tombstone_documented (.templ a b c)
  | array a n => exact tombstone_documented (.array a n)

example : usable (.templ true true [.floating, .pointer]) = true ∧ ¬ Documented .integral := ⟨rfl, nofun⟩

/-- **C95, no elements.** A type without elements has only one value, and no tombstone. -/
theorem C95_empty (tl c : Bool) : tombstone (.templ tl c []) = none ∧ usable (.templ tl c []) = false := by
  simp [tombstone, usable]

/-- A tuple-like type whose elements all have tombstones has none itself if it is a `std::array`. -/
theorem C95_array_violated (e : VTy) (n : Nat) (he : (tombstone e).isSome) :
    (∃ ts, elementTypes (.array e n) = some ts ∧ ∀ t ∈ ts, (tombstone t).isSome) ∧ tombstone (.array e n) = none ∧
      usable (.array e n) = false := by
  refine ⟨⟨_, rfl, fun t ht => ?_⟩, by simp [tombstone], by simp [usable, tombstone]⟩
  rw [List.eq_of_mem_replicate ht]
  exact he

example : (tombstone .floating).isSome = true := rfl

/-! ## C96 -/

/-- What a user expects: a function that accepts the contained value is called with it; one that accepts the elements of a tuple-like value
instead is called with those; one that accepts neither is an error. -/
def expected (tuplelike acceptsWhole acceptsElements : Bool) : Invoked :=
  if acceptsWhole then .whole else if tuplelike && acceptsElements then .unpacked else .illFormed

/-- **C96.** The members `transform` and `and_then` do so for types that are not specialisations of a template of types nor tuple-like,
for types no `apply` is found for, and for tuples and pairs if the function does not accept the tuple itself. Missing: see the
next theorem. -/
theorem C96_unpack_partial (c : Contained) (w e : Bool)
    (h : (c.tuplelike = false ∧ (c.templ = false ∨ c.found ≠ .std)) ∨ (c.tuplelike = true ∧ c.templ = true ∧ c.found ≠ .nothing ∧ w = false)) :
    unwrapInvoke c w e = expected c.tuplelike w e := by
  obtain ⟨t, tl, f⟩ := c
  cases t <;> cases tl <;> cases f <;> cases w <;> cases e <;> simp_all [unwrapInvoke, expected, invokeWhole]

/-- A `std::pair` and a function of two arguments. -/
example : unwrapInvoke ⟨true, true, .std⟩ false true = .unpacked := rfl

/-- A function that takes a tuple as such is not accepted, or, if it also takes its elements, is called with the elements; a type for
which `std::apply` is found but which is not tuple-like (`std::complex<double>`) accepts no function at all; a `std::array` is not
unpacked; and the free function `transform` unpacks nothing. -/
theorem C96_unpack_violated :
    (∀ f, f ≠ .nothing → unwrapInvoke ⟨true, true, f⟩ true false = .illFormed ∧ expected true true false = .whole) ∧
    (∀ f, f ≠ .nothing → unwrapInvoke ⟨true, true, f⟩ true true = .unpacked ∧ expected true true true = .whole) ∧
    (∀ e, unwrapInvoke ⟨true, false, .std⟩ true e = .illFormed ∧ expected false true e = .whole) ∧
    (∀ f, unwrapInvoke ⟨false, true, f⟩ false true = .illFormed ∧ expected true false true = .unpacked) ∧
    (freeTransform false true = .illFormed ∧ expected true false true = .unpacked) := by
  refine ⟨fun f h => ?_, fun f h => ?_, fun e => ⟨rfl, rfl⟩, fun f => ⟨rfl, rfl⟩, rfl, rfl⟩ <;>
    cases f <;> simp_all [unwrapInvoke, expected]

/-- The free function calls a function that accepts the value with it. -/
theorem C96_free (e : Bool) : freeTransform true e = .whole := rfl

end Verif.Opt
