import Verif.Deduce.Model
import Verif.Span.PropsConvert

/-!
# Types deduced from initialisers (C129)

The specification: a container or tuple made of some values holds these values, in order; a span made of an object views all
of its elements.
-/

namespace Verif.Deduce

variable {V : Type}

/-- The elements are the arguments, in order. -/
def Holds (vs : List V) (args : List (Arg V)) : Prop :=
  vs.length = args.length ∧ ∀ (i : Nat) (a : Arg V), args[i]? = some a → vs[i]? = some a.val

/-- The only argument is a specialisation of the template itself. -/
def OneOfOwn (c : Tmpl) (args : List (Arg V)) : Prop :=
  ∃ a, args = [a] ∧
    match c with
    | .vec => ∃ t n, a.ty = .vec t n
    | .set => ∃ t n, a.ty = .set t n
    | .tuple => ∃ ts, a.ty = .tup ts

/-- The type of the container of `n` elements of type `t`. -/
def container : Tmpl → Ty → Nat → Option Ty
  | .vec, t, n => some (.vec t n)
  | .set, t, n => some (.set t n)
  | .tuple, _, _ => none

theorem isInst_iff (c : Tmpl) (a : Arg V) : a.ty.isInst c = true ↔ OneOfOwn c [a] := by
  rcases a with ⟨t, v⟩
  cases c <;> cases t <;> simp [Ty.isInst, OneOfOwn]

theorem guide_own {c : Tmpl} {args : List (Arg V)} (h : OneOfOwn c args) : guide c args = some .copy := by
  obtain ⟨a, rfl, h'⟩ := h
  have hi : a.ty.isInst c = true := (isInst_iff c a).mpr ⟨a, rfl, h'⟩
  rcases a with ⟨t, v⟩
  cases c <;> cases t <;> simp_all [guide, Guide.type, Guide.better, Ty.inst?, Ty.isInst]

theorem guide_user {c : Tmpl} {args : List (Arg V)} (h : ¬OneOfOwn c args) (hn : args ≠ [] ∨ c = .tuple) :
    guide c args = some .user := by
  match args with
  | [] =>
    have : c = .tuple := hn.resolve_left fun g => g rfl
    subst this
    rfl
  | [a] =>
    have hi : a.ty.isInst c = false := by
      rw [← Bool.not_eq_true, isInst_iff]
      exact h
    cases h2 : a.ty.inst? c <;> cases c <;> simp [guide, Guide.type, Guide.better, hi, h2]
  | a :: b :: as => cases c <;> simp [guide, Guide.type]

theorem convertAll_spec (W : World V) (t : Ty) : ∀ (args : List (Arg V)) (vs : List V), convertAll W t args = some vs ↔
    vs.length = args.length ∧ ∀ (i : Nat) (a : Arg V), args[i]? = some a → ∃ f, W.conv a.ty t = some f ∧ vs[i]? = some (f a.val)
  | [], vs => by
    simp only [convertAll, List.length_nil, List.getElem?_nil]
    constructor
    · rintro ⟨⟩; exact ⟨rfl, fun _ _ h => by cases h⟩
    · rintro ⟨h, _⟩; rw [List.length_eq_zero_iff.mp h]
  | a :: as, vs => by
    constructor
    · intro h
      simp only [convertAll] at h
      cases hf : W.conv a.ty t with
      | none => rw [hf] at h; cases h
      | some f =>
        cases hr : convertAll W t as with
        | none => rw [hf, hr] at h; cases h
        | some ws =>
          rw [hf, hr] at h
          cases h
          obtain ⟨h1, h2⟩ := (convertAll_spec W t as ws).mp hr
          refine ⟨by simp [h1], fun i b hb => ?_⟩
          cases i with
          | zero => cases hb; exact ⟨f, hf, rfl⟩
          | succ i => simpa using h2 i b (by simpa using hb)
    · rintro ⟨h1, h2⟩
      cases vs with
      | nil => cases h1
      | cons w ws =>
        obtain ⟨f, hf, hw⟩ := h2 0 a rfl
        have hr := (convertAll_spec W t as ws).mpr ⟨by simpa using h1, fun i b hb => by simpa using h2 (i + 1) b (by simpa using hb)⟩
        simp only [List.getElem?_cons_zero, Option.some.injEq] at hw
        simp only [convertAll, hf, hr, hw]
        rfl

/-- What is made of the arguments when the guide of the library is chosen. -/
theorem make_user (W : World V) {c : Tmpl} (hc : c ≠ .tuple) {a : Arg V} {as : List (Arg V)} (h : ¬OneOfOwn c (a :: as)) :
    make W c (a :: as) = (convertAll W a.ty (a :: as)).bind fun vs =>
      (container c a.ty (as.length + 1)).map fun t => (t, vs) := by
  have hg := guide_user h (.inl (List.cons_ne_nil _ _))
  cases c with
  | tuple => exact absurd rfl hc
  | vec | set =>
    simp only [make, deduce, hg, Option.bind_some, Guide.type, List.length_cons, Nat.add_comm 1, Nat.le_refl, if_true, container,
      Option.map_some]
    cases convertAll W a.ty (a :: as) <;> rfl

/-- **C129, containers, partial.** `cx_vector{a, b, …}` and `cx_set{a, b, …}` are containers of exactly as many elements as there are
arguments, of the type of the first; they compile exactly if all arguments convert to it, and the elements are then the
converted arguments in order, the first one unchanged.  Missing: that the others are unchanged (`C129_narrowing_violated`,
`C129_same_types`), and a single argument that is itself such a container (`C129_nesting_violated`). -/
theorem C129_containers_partial (W : World V) {c : Tmpl} (hc : c ≠ .tuple) (a : Arg V) (as : List (Arg V))
    (h : ¬OneOfOwn c (a :: as)) :
    ((make W c (a :: as)).isSome ↔ ∀ b ∈ as, (W.conv b.ty a.ty).isSome) ∧
    ∀ t vs, make W c (a :: as) = some (t, vs) →
      container c a.ty (as.length + 1) = some t ∧ vs.length = as.length + 1 ∧ vs.head? = some a.val ∧
      ∀ (i : Nat) (b : Arg V), (a :: as)[i]? = some b → ∃ f, W.conv b.ty a.ty = some f ∧ vs[i]? = some (f b.val) := by
  have hcont : ∃ t, container c a.ty (as.length + 1) = some t := by
    cases c with
    | tuple => exact absurd rfl hc
    | vec | set => exact ⟨_, rfl⟩
  obtain ⟨t0, ht0⟩ := hcont
  rw [make_user W hc h, ht0]
  constructor
  · have hex : ∀ bs : List (Arg V), (convertAll W a.ty bs).isSome ↔ ∀ b ∈ bs, (W.conv b.ty a.ty).isSome := by
      intro bs
      induction bs with
      | nil => simp [convertAll]
      | cons b bs ih =>
        simp only [convertAll, List.forall_mem_cons, ← ih]
        cases W.conv b.ty a.ty <;> cases convertAll W a.ty bs <;> simp
    have := hex (a :: as)
    rw [List.forall_mem_cons, W.self] at this
    cases hm : convertAll W a.ty (a :: as) with
    | none => rw [hm] at this; simpa using this
    | some vs => rw [hm] at this; simpa using this
  · intro t vs hm
    cases hv : convertAll W a.ty (a :: as) with
    | none => rw [hv] at hm; cases hm
    | some ws =>
      rw [hv] at hm
      cases hm
      obtain ⟨h1, h2⟩ := (convertAll_spec W a.ty (a :: as) vs).mp hv
      refine ⟨rfl, h1, ?_, h2⟩
      obtain ⟨f, hf, hw⟩ := h2 0 a rfl
      rw [W.self] at hf
      cases hf
      rw [List.head?_eq_getElem?]
      exact hw

/-- **C129, containers of arguments of one type.** They hold exactly the arguments. -/
theorem C129_same_types (W : World V) {c : Tmpl} (hc : c ≠ .tuple) (a : Arg V) (as : List (Arg V))
    (h : ¬OneOfOwn c (a :: as)) (hs : ∀ b ∈ as, b.ty = a.ty) :
    ∃ t vs, make W c (a :: as) = some (t, vs) ∧ container c a.ty (as.length + 1) = some t ∧ Holds vs (a :: as) := by
  obtain ⟨h1, h2⟩ := C129_containers_partial W hc a as h
  have hsome := h1.mpr fun b hb => by rw [hs b hb, W.self]; rfl
  obtain ⟨⟨t, vs⟩, hm⟩ := Option.isSome_iff_exists.mp hsome
  obtain ⟨g1, g2, _, g4⟩ := h2 t vs hm
  refine ⟨t, vs, hm, g1, g2, fun i b hb => ?_⟩
  obtain ⟨f, hf, hv⟩ := g4 i b hb
  have hbt : b.ty = a.ty := by
    rcases List.mem_cons.mp (List.mem_of_getElem? hb) with rfl | hb
    · rfl
    · exact hs b hb
  rw [hbt, W.self] at hf
  cases hf
  exact hv

/-- Conversions of the example: the values are half integers, and type 0 is integral, to which others convert by truncation. -/
def halves : World Int where
  conv t u := match t, u with
    | .atom 0, .atom 0 => some id
    | .atom _, .atom 0 => some fun v => (v.tdiv 2) * 2
    | .atom _, .atom _ => some id
    | _, _ => some id
  self t := by cases t with
    | atom n => cases n <;> rfl
    | _ => rfl
  contents v := [v]

example : (make halves .vec [⟨.atom 0, 2⟩, ⟨.atom 0, 4⟩]) = some (.vec (.atom 0) 2, [2, 4]) := by
  simp [make, deduce, guide, Guide.type, convertAll, halves]

/-- **C129 is false for arguments of different types.** If the conversion to the type of the first changes an argument, the program
compiles and the container does not hold that argument: `cx_vector{1, 2.5}` holds 1 and 2. -/
theorem C129_narrowing_violated (W : World V) {c : Tmpl} (hc : c ≠ .tuple) (a b : Arg V) (f : V → V)
    (hf : W.conv b.ty a.ty = some f) (hne : f b.val ≠ b.val) :
    ∃ t, make W c [a, b] = some (t, [a.val, f b.val]) ∧ ¬Holds [a.val, f b.val] [a, b] := by
  have h : ¬OneOfOwn c [a, b] := by rintro ⟨x, hx, _⟩; cases hx
  obtain ⟨h1, h2⟩ := C129_containers_partial W hc a [b] h
  obtain ⟨⟨t, vs⟩, hm⟩ := Option.isSome_iff_exists.mp (h1.mpr fun x hx => by
    rw [List.mem_singleton.mp hx, hf]; rfl)
  obtain ⟨_, g2, g3, g4⟩ := h2 t vs hm
  obtain ⟨f', hf', hv⟩ := g4 1 b rfl
  rw [hf] at hf'
  cases hf'
  refine ⟨t, ?_, fun hh => hne (Option.some.inj (hh.2 1 b rfl))⟩
  rw [hm]
  match vs, g2 with
  | [x, y], _ =>
    cases g3
    cases hv
    rfl

example : make halves .vec [⟨.atom 0, 2⟩, ⟨.atom 1, 5⟩] = some (.vec (.atom 0) 2, [2, 4]) := by
  simp [make, deduce, guide, Guide.type, convertAll, halves]

/-- **C129 is false for a single argument that is of the template itself.** The result is a copy of it, of the same type, and not a
container or tuple with it as the element; two such arguments are the elements. -/
theorem C129_nesting_violated (W : World V) (c : Tmpl) (a b : Arg V) (h : OneOfOwn c [a]) :
    make W c [a] = some (a.ty, W.contents a.val) ∧
    (∀ t vs, make W c [a, b] = some (t, vs) → vs.head? = some a.val ∧ vs.length = 2) := by
  refine ⟨?_, fun t vs hm => ?_⟩
  · have hg := guide_own h
    have hi := (isInst_iff c a).mpr h
    have ht : a.ty.inst? c = some a.ty := by
      cases hty : a.ty <;> rw [hty] at hi <;> cases c <;> simp_all [Ty.inst?, Ty.isInst]
    simp [make, deduce, hg, Guide.type, ht]
  · have h2 : ¬OneOfOwn c [a, b] := by rintro ⟨x, hx, _⟩; cases hx
    by_cases hc : c = .tuple
    · subst hc
      have hg := guide_user h2 (.inr rfl)
      simp only [make, hg, deduce, Option.bind_some, Guide.type] at hm
      cases hm
      exact ⟨rfl, rfl⟩
    · obtain ⟨_, g⟩ := C129_containers_partial W hc a [b] h2
      obtain ⟨_, g2, g3, _⟩ := g t vs hm
      exact ⟨g3, g2⟩

example : OneOfOwn .vec [(⟨.vec (.atom 0) 3, 7⟩ : Arg Int)] := ⟨_, rfl, _, _, rfl⟩

/-- **C129, an argument of a class derived from the template** is the element, like any other. -/
theorem C129_derived (W : World V) (c : Tmpl) (n : Nat) (base : Ty) (v : V) :
    ∃ t, make W c [⟨.derived n base, v⟩] = some (t, [v]) ∧
      (c = .tuple → t = .tup [.derived n base]) ∧ (c ≠ .tuple → container c (.derived n base) 1 = some t) := by
  have h : ¬OneOfOwn c [(⟨.derived n base, v⟩ : Arg V)] := by
    rw [← isInst_iff]; cases c <;> simp [Ty.isInst]
  by_cases hc : c = .tuple
  · subst hc
    exact ⟨.tup [.derived n base], by simp [make, deduce, guide_user h (.inr rfl), Guide.type], fun _ => rfl, fun g => absurd rfl g⟩
  · obtain ⟨t, vs, hm, ht, hh⟩ := C129_same_types W hc ⟨.derived n base, v⟩ [] h (fun _ hb => by cases hb)
    refine ⟨t, ?_, fun g => absurd g hc, fun _ => ht⟩
    match vs, hh with
    | [x], hh => cases hh.2 0 _ rfl; exact hm

/-- **C129, tuples, partial.** `tuple{a, b, …}` compiles for every number of arguments and holds the arguments in order, each with its
type.  Missing: a single argument that is a tuple (`C129_nesting_violated`). -/
theorem C129_tuple_partial (W : World V) (args : List (Arg V)) (h : ¬OneOfOwn .tuple args) :
    ∃ ts vs, make W .tuple args = some (.tup ts, vs) ∧ Holds vs args ∧ ts.length = args.length ∧
      ∀ (i : Nat) (a : Arg V), args[i]? = some a → ts[i]? = some a.ty := by
  refine ⟨args.map (·.ty), args.map (·.val), ?_, ⟨by simp, fun i a ha => by simp [ha]⟩, by simp, fun i a ha => by simp [ha]⟩
  simp [make, deduce, guide_user h (.inr rfl), Guide.type]

example : ¬OneOfOwn .tuple [(⟨.vec (.atom 0) 3, 7⟩ : Arg Int)] := by
  rintro ⟨a, ha, ts, ht⟩
  cases ha
  cases ht

/-- **C129, no arguments.** Only the type of a tuple can be deduced. -/
theorem C129_no_arguments (W : World V) :
    make W .vec [] = none ∧ make W .set [] = none ∧ make W .tuple [] = some (.tup [], []) := ⟨rfl, rfl, rfl⟩

/-- **C129, sets.** A set made of two arguments that become equal has an element twice, although the arguments may differ
(C30): `cx_set{1, 1.5}` has two elements 1. -/
theorem C129_set_repeats_violated (W : World V) (a b : Arg V) (f : V → V) (hf : W.conv b.ty a.ty = some f)
    (he : f b.val = a.val) : ∃ t, make W .set [a, b] = some (t, [a.val, a.val]) := by
  have h : ¬OneOfOwn .set [a, b] := by rintro ⟨x, hx, _⟩; cases hx
  obtain ⟨h1, h2⟩ := C129_containers_partial W (c := .set) (by decide) a [b] h
  obtain ⟨⟨t, vs⟩, hm⟩ := Option.isSome_iff_exists.mp (h1.mpr fun x hx => by
    rw [List.mem_singleton.mp hx, hf]; rfl)
  obtain ⟨_, g2, g3, g4⟩ := h2 t vs hm
  obtain ⟨f', hf', hv⟩ := g4 1 b rfl
  rw [hf] at hf'
  cases hf'
  refine ⟨t, ?_⟩
  rw [hm]
  match vs, g2 with
  | [x, y], _ =>
    cases g3
    rw [List.getElem?_cons_succ, List.getElem?_cons_zero, he] at hv
    cases hv
    rfl

example : make halves .set [⟨.atom 0, 2⟩, ⟨.atom 1, 3⟩] = some (.set (.atom 0) 2, [2, 2]) := by
  simp [make, deduce, guide, Guide.type, convertAll, halves]

end Verif.Deduce

namespace Verif.Span

variable {α : Type}

/-- The source is an array, or a span of fixed extent: its type says how many elements there are. -/
def Source.Fixed (s : Source) : Prop := s.kind = .builtin ∨ s.kind = .stdArray ∨ s.kind = .span false

theorem sguide_eq (s : Source) (hb : s.kind = .builtin → s.lvalue = true) : sguide s =
    match s.kind with
    | .builtin => some .builtin
    | .stdArray => some (if s.lvalue then (if s.const then .arrayConstRef else .arrayRef) else .range)
    | .span _ => some .copy
    | .range _ _ => some .range := by
  rcases s with ⟨k, e, c, l, p, n⟩
  cases k <;> cases l <;> cases c <;> simp_all [sguide, SGuide.viable, SGuide.rank]

/-- **C129, spans of lvalues, partial.** `span{x}` of an lvalue array, contiguous range or span, and of a temporary span, compiles; it
has const elements exactly if they are const in `x`, an extent known at compile time exactly if the type of `x` says it, and it
views all the elements of `x`.  Missing: other temporaries (`C129_span_temporary`, `C129_span_const_temporary`) and ranges that
are not contiguous (C106). -/
theorem C129_span_partial (C : Classes) {mem : List α} (hm : Fits mem) (s : Source) (hp : s.pos + s.len ≤ mem.length)
    (ha : s.ArrayOf s.elem.cls) (hl : s.lvalue = true ∨ ∃ d, s.kind = .span d) :
    ∃ T ext m, deduceMake C s = some ((T, ext), m) ∧
      T.cls = s.elem.cls ∧ (T.const = true ↔ s.ConstElems) ∧
      (ext ≠ dynamicExtent ↔ s.Fixed) ∧
      size m.span = s.len ∧ ∀ i, i < s.len → ∃ a, mem[s.pos + i]? = some a ∧ m.get mem i = .ok a := by
  have hbl : s.kind = .builtin → s.lvalue = true := fun hk => by
    rcases hl with h | ⟨d, h⟩
    · exact h
    · rw [hk] at h; cases h
  have hlen : s.len ≠ dynamicExtent := by
    unfold Fits at hm
    unfold dynamicExtent
    omega
  have key : ∃ g, sguide s = some g ∧ (g.type s).1.cls = s.elem.cls ∧ ((g.type s).1.const = true ↔ s.ConstElems) ∧
      ((g.type s).2 ≠ dynamicExtent ↔ s.Fixed) ∧ ((g.type s).2 = dynamicExtent ∨ (g.type s).2 = s.len) ∧
      (make C (g.type s).1 (g.type s).2 true s).isSome := by
    rw [sguide_eq s hbl]
    have hacc := fun T ext (hT : T.cls = s.elem.cls) => C106_accepted_partial C (T := T) (ext := ext) (direct := true) (s := s)
      (by rw [hT]; exact ha)
    rcases s with ⟨k, ⟨ec, eo⟩, c, l, p, n⟩
    cases k with
    | builtin =>
      refine ⟨_, rfl, rfl, by simp [SGuide.type, Source.ConstElems], by simpa [SGuide.type, Source.Fixed] using hlen,
        .inr rfl, ?_⟩
      exact ((hacc ⟨ec, eo⟩ n rfl).2.1 rfl fun _ => rfl).mpr ⟨id, .inr (Nat.le_refl _)⟩
    | stdArray =>
      have hl' : l = true := by simpa using hl
      subst hl'
      refine ⟨_, rfl, ?_⟩
      cases c
      · refine ⟨rfl, by simp [SGuide.type, Source.ConstElems], by simpa [SGuide.type, Source.Fixed] using hlen, .inr rfl, ?_⟩
        exact ((hacc ⟨ec, eo⟩ n rfl).1 rfl rfl).mpr ⟨by simp, .inr (Nat.le_refl _)⟩
      · refine ⟨rfl, by simp [SGuide.type, Source.ConstElems], by simpa [SGuide.type, Source.Fixed] using hlen, .inr rfl, ?_⟩
        exact ((hacc ⟨ec, true⟩ n rfl).1 rfl rfl).mpr ⟨by simp, .inr (Nat.le_refl _)⟩
    | span d =>
      refine ⟨_, rfl, rfl, by simp [SGuide.type, Source.ConstElems], ?_, ?_, ?_⟩
      · cases d
        · simpa [SGuide.type, Source.Fixed] using hlen
        · simp [SGuide.type, Source.Fixed]
      · cases d
        · exact .inr rfl
        · exact .inl rfl
      · exact ((hacc ⟨ec, eo⟩ _ rfl).2.2 (.inr ⟨d, rfl⟩) rfl).mpr (by simp [Source.ConstElems])
    | range st d =>
      have hl' : l = true := by simpa using hl
      subst hl'
      refine ⟨_, rfl, rfl, ?_, by simp [SGuide.type, Source.Fixed], .inl rfl, ?_⟩
      · cases d <;> simp [SGuide.type, Source.rangeElem, Source.ConstElems]
      · refine ((hacc (Source.rangeElem ⟨.range st d, ⟨ec, eo⟩, c, true, p, n⟩) dynamicExtent rfl).2.2 (.inl ⟨st, d, rfl⟩) rfl).mpr ?_
        cases d <;> simp [Source.rangeElem, Source.ConstElems]
  obtain ⟨g, hg, h1, h2, h3, h4, h5⟩ := key
  obtain ⟨m, hmk⟩ := Option.isSome_iff_exists.mp h5
  refine ⟨_, _, m, by simp [deduceMake, hg, hmk], h1, h2, h3, ?_⟩
  obtain ⟨_, g2⟩ := C106_elements_partial hm hp hmk
  obtain ⟨g3, _, g5⟩ := g2 (by rw [h1]; exact ha) (h4.imp_right fun h => by omega)
  have hz : size m.span = s.len := by
    rw [g3]
    split
    · rfl
    · exact h4.resolve_left ‹_›
  exact ⟨hz, fun i hi => g5 i (by omega)⟩

/-- A vector of three numbers at the beginning of the memory. -/
def aVector : Source := ⟨.range .contiguous true, ⟨0, false⟩, false, true, 0, 3⟩

example : aVector.ArrayOf 0 ∧ aVector.lvalue = true ∧ ¬aVector.Fixed := by
  refine ⟨⟨rfl, ?_⟩, rfl, ?_⟩
  · intro st d h
    cases h
    rfl
  · simp [Source.Fixed, aVector]

/-- **C129, spans of temporaries.** `span{x}` of a temporary that has its elements in itself and whose elements are not const does not
compile: the guide gives an element type without const. -/
theorem C129_span_temporary (C : Classes) (s : Source) (hl : s.lvalue = false) (hc : s.const = false) (he : s.elem.const = false)
    (hk : s.kind = .stdArray ∨ ∃ st, s.kind = .range st true) : deduceMake C s = none := by
  have hg : sguide s = some .range := by
    rw [sguide_eq s (by rcases hk with h | ⟨_, h⟩ <;> simp [h])]
    rcases hk with h | ⟨_, h⟩ <;> simp [h, hl]
  have hmk : make C s.rangeElem dynamicExtent true s = none := by
    unfold make
    simp only
    rw [if_neg]
    rcases hk with h | ⟨_, h⟩ <;> simp [ptrConv, Source.pointee, Source.rangeElem, h, hl, hc, he]
  simp [deduceMake, hg, SGuide.type, hmk]

example : deduceMake ⟨fun _ _ => false⟩ { aVector with lvalue := false } = none := by decide

/-- **C129, spans of const temporaries.** If such a temporary is const, or its elements are, a span of dynamic extent is made of it, even
for an array, whose number of elements is known; it does not outlive the temporary. -/
theorem C129_span_const_temporary (C : Classes) {mem : List α} (hm : Fits mem) (s : Source) (hp : s.pos + s.len ≤ mem.length)
    (hl : s.lvalue = false) (hc : s.const = true ∨ s.elem.const = true)
    (hk : s.kind = .stdArray ∨ s.kind = .range .contiguous true) :
    ∃ m, deduceMake C s = some ((⟨s.elem.cls, true⟩, dynamicExtent), m) ∧ size m.span = s.len := by
  have hg : sguide s = some .range := by
    rw [sguide_eq s (by rcases hk with h | h <;> simp [h])]
    rcases hk with h | h <;> simp [h, hl]
  have hT : s.rangeElem = ⟨s.elem.cls, true⟩ := by
    rcases hk with h | h <;> rcases hc with h' | h' <;> simp [Source.rangeElem, h, h']
  have hch : choose s.rangeElem dynamicExtent true s = some .range := by
    rw [choose_eq]
    rcases hk with h | h <;> simp [h, hl]
  have hmk : (make C s.rangeElem dynamicExtent true s).isSome := by
    have hpc : ptrConv C s.pointee s.rangeElem = true := by
      rw [hT]
      rcases hk with h | h <;> simp [ptrConv, Source.pointee, h]
    unfold make
    simp only [hpc, if_true, hch]
    rcases hk with h | h <;> simp [h]
  obtain ⟨m, hm'⟩ := Option.isSome_iff_exists.mp hmk
  rw [hT] at hm'
  refine ⟨m, by simp [deduceMake, hg, SGuide.type, hm', hT], ?_⟩
  rw [(make_span hm hp hm').1]
  simp [size, ofPtrCount]

example : ((deduceMake ⟨fun _ _ => false⟩ { aVector with kind := .stdArray, lvalue := false, const := true }).map fun x => x.1) =
    some (⟨0, true⟩, dynamicExtent) := by decide

end Verif.Span
