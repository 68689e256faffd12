import Verif.Concepts.Model
import Mathlib.Tactic.Linarith

/-!
# Concepts (C156)
-/

namespace Verif.Concepts

variable {R : Type} [DecidableEq R]

/-! ## Specification: the concepts of the standard -/

/-- `bool` is a type as it should be: it converts to itself, and so does its negation. -/
def Sane (L : Types R) : Prop := L.converts L.bool = true ∧ L.neg L.bool = some L.bool

/-- `boolean-testable` of the standard. -/
def BooleanTestable (L : Types R) (r : R) : Prop := L.converts r = true ∧ ∃ r', L.neg r = some r' ∧ L.converts r' = true

/-- The standard's requirement of an operator: for two lvalues that are const, whatever `T` refers to, it gives something that can be tested. -/
def StdOp (L : Types R) (T : Ty) (o : Op) : Prop :=
  L.unreferenceable T.name = false ∧ ∃ r, L.op o T.name true T.volatile = some r ∧ BooleanTestable L r

/-- `std::equality_comparable`. -/
def StdEqualityComparable (L : Types R) (T : Ty) : Prop := StdOp L T .eq ∧ StdOp L T .ne

/-- `std::totally_ordered`. -/
def StdTotallyOrdered (L : Types R) (T : Ty) : Prop := ∀ o, StdOp L T o

/-- The operators of a type, for const objects, return `bool`, those there are. -/
def ReturnsBool (L : Types R) (T : Ty) (o : Op) : Prop := ∀ r, L.op o T.name true T.volatile = some r → r = L.bool

/-- `std::unsigned_integral`: an integer type whose -1 is not negative. -/
def StdUnsigned (t : Option IntTy) : Prop := ∃ T, t = some T ∧ ¬ T.minusOne < 0

/-- `std::ranges::range`: an array of known bound, or `begin` and `end`, as members or free functions, that give iterators. -/
def StdRange (c : Bool) : Sort' → Prop
  | .array b => b.isSome
  | .cls member free => ∀ e, member e c = some .iterator ∨ free e c = some .iterator

/-! ## Lemmas -/

theorem exactly_iff (L : Types R) (T : Ty) (o : Op) : exactly L T o = true ↔
    L.unreferenceable T.name = false ∧ L.op o T.name (paramConst T) T.volatile = some L.bool := by
  unfold exactly
  simp

theorem exactly_std (L : Types R) (hs : Sane L) (T : Ty) (h : T.ref = .none ∨ T.const = true) (o : Op) :
    exactly L T o = true ↔ StdOp L T o ∧ ReturnsBool L T o := by
  have hp : paramConst T = true := by
    unfold paramConst
    rcases h with h | h
    · rw [if_pos h]
    · split
      · rfl
      · exact h
  rw [exactly_iff, hp]
  constructor
  · rintro ⟨h1, h2⟩
    refine ⟨⟨h1, L.bool, h2, hs.1, L.bool, hs.2, hs.1⟩, fun r hr => ?_⟩
    rw [h2] at hr
    exact (Option.some.inj hr).symm
  · rintro ⟨⟨h1, r, hr, _⟩, h2⟩
    exact ⟨h1, by rw [hr, h2 r hr]⟩

theorem total_iff (L : Types R) (T : Ty) : totallyOrdered L T = true ↔ ∀ o, exactly L T o = true := by
  unfold totallyOrdered equalityComparable partiallyOrdered
  simp only [Bool.and_eq_true]
  constructor
  · rintro ⟨⟨h1, h2⟩, ⟨⟨h3, h4⟩, h5⟩, h6⟩ o
    cases o <;> assumption
  · intro h
    exact ⟨⟨h _, h _⟩, ⟨⟨h _, h _⟩, h _⟩, h _⟩

/-! ## Theorems -/

/-- **C156, comparisons, partial.** Of a type that is not a reference, or refers to const, the library's concepts ask for what the standard's do, and that the
operators return `bool` itself: so they accept the same types if the operators do.  Missing: the others, see below. -/
theorem C156_comparisons_partial (L : Types R) (hs : Sane L) (T : Ty) (h : T.ref = .none ∨ T.const = true) :
    (equalityComparable L T = true ↔ StdEqualityComparable L T ∧ ReturnsBool L T .eq ∧ ReturnsBool L T .ne) ∧
    (totallyOrdered L T = true ↔ StdTotallyOrdered L T ∧ ∀ o, ReturnsBool L T o) := by
  refine ⟨?_, ?_⟩
  · unfold equalityComparable StdEqualityComparable
    rw [Bool.and_eq_true, exactly_std L hs T h, exactly_std L hs T h]
    tauto
  · rw [total_iff]
    unfold StdTotallyOrdered
    constructor
    · intro g
      exact ⟨fun o => ((exactly_std L hs T h o).mp (g o)).1, fun o => ((exactly_std L hs T h o).mp (g o)).2⟩
    · rintro ⟨g1, g2⟩ o
      exact (exactly_std L hs T h o).mpr ⟨g1 o, g2 o⟩

/-- **C156 fails for operators that do not return `bool`**, but a reference to one or an object that can be tested: the standard's concepts accept the type, those of
the library do not. -/
theorem C156_not_bool_violated (L : Types R) (hs : Sane L) (T : Ty) (h : T.ref = .none ∨ T.const = true) (o : Op) (r : R)
    (hr : L.op o T.name true T.volatile = some r) (hb : r ≠ L.bool) :
    (StdTotallyOrdered L T → totallyOrdered L T = false) ∧
    (o = .eq ∨ o = .ne → StdEqualityComparable L T → equalityComparable L T = false) := by
  have hn : exactly L T o = false := by
    cases he : exactly L T o
    · rfl
    · exact absurd (((exactly_std L hs T h o).mp he).2 r hr) hb
  refine ⟨fun _ => ?_, fun ho _ => ?_⟩
  · cases ht : totallyOrdered L T
    · rfl
    · rw [(total_iff L T).mp ht o] at hn; cases hn
  · unfold equalityComparable
    rcases ho with rfl | rfl
    · rw [hn]; rfl
    · rw [hn]; simp

/-- **C156 fails for references** to objects that are not const: the library's concepts look at the operators for such objects. A type whose operators change the
operands is accepted by them, and not by the standard's; one with operators of its own for const objects may be rejected although the standard's accept it. -/
theorem C156_reference_violated (L : Types R) (T : Ty) (h : T.ref ≠ .none) (hc : T.const = false) :
    (equalityComparable L T = true ↔ L.unreferenceable T.name = false ∧
      L.op .eq T.name false T.volatile = some L.bool ∧ L.op .ne T.name false T.volatile = some L.bool) ∧
    (totallyOrdered L T = true ↔ L.unreferenceable T.name = false ∧ ∀ o, L.op o T.name false T.volatile = some L.bool) ∧
    ((∀ o, L.op o T.name true T.volatile = none) → ¬ StdEqualityComparable L T ∧ ¬ StdTotallyOrdered L T) := by
  have hp : paramConst T = false := by rw [paramConst, if_neg h, hc]
  refine ⟨?_, ?_, ?_⟩
  · unfold equalityComparable
    rw [Bool.and_eq_true, exactly_iff, exactly_iff, hp]
    tauto
  · rw [total_iff]
    constructor
    · intro g
      exact ⟨((exactly_iff L T .eq).mp (g .eq)).1, fun o => hp ▸ ((exactly_iff L T o).mp (g o)).2⟩
    · rintro ⟨g1, g2⟩ o
      exact (exactly_iff L T o).mpr ⟨g1, hp ▸ g2 o⟩
  · intro hn
    refine ⟨fun g => ?_, fun g => ?_⟩
    · obtain ⟨_, r, hr, _⟩ := g.1
      rw [hn] at hr; cases hr
    · obtain ⟨_, r, hr, _⟩ := g .eq
      rw [hn] at hr; cases hr

/-- C156: `unsigned_integral` accepts the types that the standard's does: the unsigned integer types, of any width, and no others. -/
theorem C156_unsigned (t : Option IntTy) (hw : ∀ T, t = some T → 0 < T.width) :
    (unsignedIntegral t = true ↔ StdUnsigned t) ∧ (unsignedIntegral t = true ↔ ∃ T, t = some T ∧ T.signed = false) ∧
    ∀ T, t = some T → (T.isUnsigned = !T.isSigned) := by
  cases t with
  | none => simp [unsignedIntegral, StdUnsigned]
  | some T =>
    have h2 : (2 : Int) ≤ 2 ^ T.width := by
      obtain ⟨k, hk⟩ := Nat.exists_eq_succ_of_ne_zero (Nat.pos_iff_ne_zero.mp (hw T rfl))
      rw [hk, Int.pow_succ]
      have := Int.pow_pos (n := 2) (m := k) (by decide)
      omega
    unfold unsignedIntegral StdUnsigned IntTy.isUnsigned IntTy.isSigned IntTy.minusOne
    cases hs : T.signed
    · have h3 : (0 : Int) < 2 ^ T.width - 1 := by omega
      have h4 : ¬ (2 : Int) ^ T.width - 1 < 0 := by omega
      simp only [if_false, Bool.false_eq_true, decide_eq_true_eq, Option.some.injEq, exists_eq_left', h3, h4]
      simp [hs, h3, h4]
      omega
    · simp [hs]

/-- C156: `same_any` tells whether a type is among others, `same_none` whether it is not; qualifiers and references count. For
`same_as_unqualified` they do not. -/
theorem C156_same (T U : Ty) (Us : List Ty) :
    (sameAny T Us = true ↔ T ∈ Us) ∧ (sameNone T Us = true ↔ T ∉ Us) ∧ (sameAsUnqualified T U = true ↔ T.name = U.name) := by
  have key : ∀ (Us : List Ty) (b : Bool), Us.foldl (fun b U => b || decide (T = U)) b = true ↔ b = true ∨ T ∈ Us := by
    intro Us
    induction Us with
    | nil => intro b; simp
    | cons V Us ih =>
      intro b
      rw [List.foldl_cons, ih, Bool.or_eq_true, decide_eq_true_eq, List.mem_cons, or_assoc]
  have h1 : sameAny T Us = true ↔ T ∈ Us := by
    unfold sameAny
    rw [key]
    simp
  refine ⟨h1, ?_, ?_⟩
  · unfold sameNone
    rw [Bool.not_eq_true', ← h1]
    simp
  · simp [sameAsUnqualified, Ty.removeCvref]

/-- C156: `range` accepts arrays of known bound, and the classes with members `begin` and `end`, whatever these return and whatever free functions there
are, as documented.  It agrees with the standard's concept for classes whose members give iterators, if there are any, can be called for
objects that are not const if they can for const ones, and have no free functions beside them. -/
theorem C156_range (c : Bool) :
    (∀ b, range (.array b) c = true ↔ StdRange c (.array b)) ∧
    ∀ member free : Bool → Bool → Option Gives,
      (range (.cls member free) c = true ↔ ∀ e, (member e c).isSome = true ∨ c = false ∧ (member e true).isSome = true) ∧
      ((∀ e c, member e c ≠ some .other) → (∀ e, (member e true).isSome = true → (member e false).isSome = true) →
        (∀ e, free e c = some .iterator → (member e c).isSome = true) →
        (range (.cls member free) c = true ↔ StdRange c (.cls member free))) := by
  refine ⟨fun b => by cases b <;> simp [range, stdCall, StdRange], fun member free => ⟨?_, ?_⟩⟩
  · unfold range stdCall
    cases c <;> simp
  · intro h1 h2 h3
    have hm : ∀ e, (member e c).isSome = true ↔ member e c = some .iterator := by
      intro e
      cases hg : member e c with
      | none => simp
      | some g =>
        cases g with
        | iterator => simp
        | other => exact absurd hg (h1 e c)
    have hc : ∀ e, stdCall (.cls member free) e c = true ↔ (member e c).isSome = true := by
      intro e
      unfold stdCall
      cases c
      · simpa using fun g => h2 e g
      · simp
    show (stdCall _ false c && stdCall _ true c) = true ↔ ∀ e, member e c = some .iterator ∨ free e c = some .iterator
    rw [Bool.and_eq_true, hc, hc, Bool.forall_bool, hm, hm]
    constructor
    · rintro ⟨g1, g2⟩
      exact ⟨.inl g1, .inl g2⟩
    · rintro ⟨g1, g2⟩
      exact ⟨g1.elim id fun g => (hm _).mp (h3 _ g), g2.elim id fun g => (hm _).mp (h3 _ g)⟩

/-- C156, the documented difference: free functions make no range, and members make one whatever they return. -/
theorem C156_range_differs (c : Bool) (member free : Bool → Bool → Option Gives) :
    ((∀ e c, member e c = none) → (∀ e, free e c = some .iterator) →
      range (.cls member free) c = false ∧ StdRange c (.cls member free)) ∧
    ((∀ e, member e c = some .other) → (∀ e, free e c = none) →
      range (.cls member free) c = true ∧ ¬ StdRange c (.cls member free)) := by
  refine ⟨fun h1 h2 => ⟨by simp [range, stdCall, h1], fun e => .inr (h2 e)⟩, fun h1 h2 => ⟨by simp [range, stdCall, h1], fun h => ?_⟩⟩
  rcases h false with h | h
  · rw [h1] at h; cases h
  · rw [h2] at h; cases h

/-! ## Instances -/

/-- What operators may return: `bool`, a reference to one, and a class that has no `!`. -/
inductive ExR where
  | bool
  | ref
  | cls
  deriving DecidableEq

/-- Type 0 has operators that return `bool`, type 1 some that return a reference to `bool`, type 2 has operators for objects that are not const
only, type 3 is `void`. -/
def exTypes : Types ExR where
  bool := .bool
  converts _ := true
  neg r := if r = .cls then none else some .bool
  op _ n c _ := if n = 0 then some .bool else if n = 1 then some .ref else if n = 2 ∧ c = false then some .bool else none
  unreferenceable n := decide (n = 3)

example : Sane exTypes := ⟨rfl, rfl⟩

example : equalityComparable exTypes ⟨0, false, false, .none⟩ = true ∧ totallyOrdered exTypes ⟨0, false, false, .lvalue⟩ = true := by decide

/-- A `==` that returns a reference. -/
example : StdTotallyOrdered exTypes ⟨1, false, false, .none⟩ ∧ exTypes.op .eq 1 true false = some .ref ∧ ExR.ref ≠ exTypes.bool ∧
    equalityComparable exTypes ⟨1, false, false, .none⟩ = false :=
  ⟨fun _ => ⟨rfl, .ref, rfl, rfl, .bool, rfl, rfl⟩, rfl, by decide, by decide⟩

/-- A reference to an object with operators that are not const. -/
example : equalityComparable exTypes ⟨2, false, false, .lvalue⟩ = true ∧ equalityComparable exTypes ⟨2, false, false, .none⟩ = false ∧
    ∀ o, exTypes.op o 2 true false = none := ⟨by decide, by decide, fun _ => rfl⟩

example : unsignedIntegral (some ⟨false, 1⟩) = true ∧ unsignedIntegral (some ⟨true, 8⟩) = false := by decide

example : sameAny ⟨0, false, false, .none⟩ [⟨1, false, false, .none⟩, ⟨0, false, false, .none⟩] = true ∧
    sameNone ⟨0, true, false, .none⟩ [⟨1, false, false, .none⟩, ⟨0, false, false, .none⟩] = true := by decide

/-- A class with members that give iterators, such as `std::vector`. -/
example : range (.cls (fun _ _ => some .iterator) fun _ _ => none) true = true ∧
    StdRange true (.cls (fun _ _ => some .iterator) fun _ _ => none) := ⟨by decide, fun _ => .inl rfl⟩

end Verif.Concepts
