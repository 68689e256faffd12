import Verif.Span.Convert
import Verif.Span.Props

/-!
# What a span can be made from (C106)

The specification is that of `std::span`: the elements of the source are the elements of an array of
the element type, up to added const.
-/

namespace Verif.Span

variable {α : Type}

/-- The elements of the source are those of one array of objects of the class. -/
def Source.ArrayOf (s : Source) (cls : Nat) : Prop :=
  s.elem.cls = cls ∧ ∀ st d, s.kind = .range st d → st = .contiguous

/-- The elements of the source are const: as declared, or because the source has its elements in itself and is const or a
temporary. -/
def Source.ConstElems (s : Source) : Prop :=
  s.elem.const = true ∨ ((s.kind = .stdArray ∨ ∃ st, s.kind = .range st true) ∧ (s.const = true ∨ s.lvalue = false))

theorem pointee_const (s : Source) : s.pointee.const = true ↔ s.ConstElems := by
  rcases s with ⟨k, e, c, l, p, n⟩
  cases k with
  | range st d => cases d <;> simp [Source.pointee, Source.ConstElems]
  | _ => simp [Source.pointee, Source.ConstElems, or_assoc]

/-- What overload resolution gives. -/
theorem choose_eq (T : Elem) (ext : Nat) (direct : Bool) (s : Source) : choose T ext direct s =
    match s.kind with
    | .stdArray =>
      if s.lvalue then some (if s.const then .arrayConstRef else .arrayRef)
      else some (if direct then .range else .arrayConstRef)
    | .builtin =>
      if s.elem.cls = T.cls ∧ (s.elem.const = true → T.const = true) then
        some (if direct = true ∧ T.const = true ∧ s.elem.const = false then .range else .builtin)
      else if direct then some .range else none
    | .span dyn =>
      if direct then some (if s.lvalue && s.const then .span else .range)
      else if ext ≠ dynamicExtent ∧ dyn = true then none else some .span
    | .range _ _ => if direct then some .range else none := by
  rcases s with ⟨k, ⟨ec, eo⟩, c, l, p, n⟩
  rcases T with ⟨tc, tk⟩
  cases k with
  | builtin =>
    by_cases h : ec = tc <;> cases eo <;> cases tk <;> cases direct <;> cases l <;> cases c <;>
      simp [choose, candidates, Ctor.viable, Ctor.explicit, Ctor.rank, h]
  | stdArray => cases direct <;> cases l <;> cases c <;> simp [choose, candidates, Ctor.viable, Ctor.explicit, Ctor.rank]
  | span d =>
    by_cases h : ext = dynamicExtent <;> cases d <;> cases direct <;> cases l <;> cases c <;>
      simp [choose, candidates, Ctor.viable, Ctor.explicit, Ctor.rank, h]
  | range st d => cases direct <;> simp [choose, candidates, Ctor.viable, Ctor.explicit, Ctor.rank]

theorem ofRange_eq {mem : List α} (hm : Fits mem) {ext p n : Nat} (h : p + n ≤ mem.length) :
    ofRange ext p (p + n) = ofPtrCount ext (some p) n := by
  unfold ofRange ofPtrs ofPtrCount
  congr 2
  unfold Fits at hm
  omega

/-- Every span that is made is the one of a pointer and a count. -/
theorem make_span {C : Classes} {T : Elem} {ext : Nat} {direct : Bool} {s : Source} {m : Made} {mem : List α} (hm : Fits mem)
    (hp : s.pos + s.len ≤ mem.length) (h : make C T ext direct s = some m) :
    m.span = ofPtrCount ext (some s.pos) s.len ∧ ptrConv C s.pointee T = true ∧
    (m.similar = true ↔ s.ArrayOf T.cls) := by
  have hsim : (s.elem.cls = T.cls && match s.kind with | .range st _ => st = .contiguous | _ => true : Bool) = true ↔
      s.ArrayOf T.cls := by
    rcases s with ⟨k, e, c, l, p, n⟩
    cases k <;> simp [Source.ArrayOf]
  unfold make at h
  simp only at h
  split at h
  · rename_i hc
    split at h
    · cases h
    · cases h; exact ⟨rfl, hc, hsim⟩
    · split at h
      · cases h
      · cases h; exact ⟨ofRange_eq hm hp, hc, hsim⟩
    · rw [Option.map_eq_some_iff] at h
      obtain ⟨x, hx, h⟩ := h
      unfold ofArray at hx
      split at hx
      · cases hx; cases h; exact ⟨rfl, hc, hsim⟩
      · cases hx
  · cases h

/-- **C106, the elements.** Whatever the source, its category and the way the span is initialised: if the elements are those of an
array of the class, and the extent is dynamic or not beyond the source, then the elements of the span are those of the source; const is
never dropped. -/
theorem C106_elements_partial {C : Classes} {T : Elem} {ext : Nat} {direct : Bool} {s : Source} {m : Made} {mem : List α} (hm : Fits mem)
    (hp : s.pos + s.len ≤ mem.length) (h : make C T ext direct s = some m) :
    (s.ConstElems → T.const = true) ∧
    (s.ArrayOf T.cls → ext = dynamicExtent ∨ ext ≤ s.len →
      size m.span = (if ext = dynamicExtent then s.len else ext) ∧ size m.span ≤ s.len ∧
      ∀ i, i < size m.span → ∃ a, mem[s.pos + i]? = some a ∧ m.get mem i = .ok a) := by
  obtain ⟨h1, h2, h3⟩ := make_span hm hp h
  refine ⟨fun hc => ?_, fun ha he => ?_⟩
  · rw [← pointee_const] at hc
    simp only [ptrConv, hc, Bool.and_eq_true] at h2
    simpa using h2.2
  · have hz : size m.span = if ext = dynamicExtent then s.len else ext := by
      rw [h1]; unfold size ofPtrCount; split <;> simp_all
    have hle : size m.span ≤ s.len := by rw [hz]; split <;> omega
    refine ⟨hz, hle, fun i hi => ?_⟩
    have hlt : s.pos + i < mem.length := by omega
    refine ⟨mem[s.pos + i], List.getElem?_eq_getElem hlt, ?_⟩
    rw [Made.get, h3.mpr ha, h1]
    simp [get, ofPtrCount, arrGet, hlt]

/-- **C106, what is accepted.** For elements of the span's class, in a built-in or `std::array` lvalue, or a contiguous range or a span
with direct initialisation, the span can be made exactly if const is not dropped and, for an array, the extent is dynamic or not
beyond it (a built-in array to which const is added directly excepted). -/
theorem C106_accepted_partial (C : Classes) {T : Elem} {ext : Nat} {direct : Bool} {s : Source} (ha : s.ArrayOf T.cls) :
    (s.kind = .stdArray → s.lvalue = true →
      ((make C T ext direct s).isSome ↔ (s.elem.const = true ∨ s.const = true → T.const = true) ∧ (ext = dynamicExtent ∨ ext ≤ s.len))) ∧
    (s.kind = .builtin → (direct = true → T.const = s.elem.const) →
      ((make C T ext direct s).isSome ↔ (s.elem.const = true → T.const = true) ∧ (ext = dynamicExtent ∨ ext ≤ s.len))) ∧
    ((∃ st d, s.kind = .range st d) ∨ (∃ d, s.kind = .span d) → direct = true →
      ((make C T ext direct s).isSome ↔ (s.ConstElems → T.const = true))) := by
  obtain ⟨hc, hr⟩ := ha
  refine ⟨fun hk hl => ?_, fun hk hd => ?_, fun hk hd => ?_⟩
  · unfold make
    rw [choose_eq, hk]
    simp only [hl, if_true]
    by_cases he : ext = dynamicExtent ∨ ext ≤ s.len
    · cases h1 : s.elem.const <;> cases h2 : s.const <;> cases h3 : T.const <;>
        simp [ptrConv, Source.pointee, hk, hl, hc, h1, h2, h3, ofArray, he]
    · cases h1 : s.elem.const <;> cases h2 : s.const <;> cases h3 : T.const <;>
        simp [ptrConv, Source.pointee, hk, hl, hc, h1, h2, h3, ofArray, he]
  · unfold make
    rw [choose_eq, hk]
    by_cases he : ext = dynamicExtent ∨ ext ≤ s.len <;> cases direct <;> cases h1 : s.elem.const <;> cases h3 : T.const <;>
      simp_all [ptrConv, Source.pointee, ofArray]
  · unfold make
    rw [choose_eq, ← pointee_const]
    subst hd
    rcases hk with ⟨st, d, hk⟩ | ⟨d, hk⟩
    · have := hr st d hk
      subst this
      have hcls : s.pointee.cls = s.elem.cls := by unfold Source.pointee; split <;> rfl
      cases h1 : s.pointee.const <;> cases h3 : T.const <;> simp [ptrConv, hcls, hc, hk, h1, h3]
    · cases h1 : s.pointee.const <;> cases h3 : T.const <;> cases h4 : s.lvalue <;> cases h5 : s.const <;>
        simp_all [ptrConv, Source.pointee]

/-- **C106, what is rejected.** No span can be made of elements of a class that is neither that of the span nor derived from it, nor of
a range whose iterators have no `operator->`; and ranges never convert implicitly. -/
theorem C106_rejected (C : Classes) {T : Elem} {ext : Nat} {direct : Bool} {s : Source} :
    (s.elem.cls ≠ T.cls → C.derived s.elem.cls T.cls = false → make C T ext direct s = none) ∧
    (∀ d, s.kind = .range .noArrow d → make C T ext direct s = none) ∧
    (∀ st d, s.kind = .range st d → make C T ext false s = none) ∧
    (s.kind = .span true → ext ≠ dynamicExtent → make C T ext false s = none) := by
  have hcls : s.pointee.cls = s.elem.cls := by unfold Source.pointee; split <;> rfl
  refine ⟨fun h1 h2 => ?_, fun d hk => ?_, fun st d hk => ?_, fun hk he => ?_⟩
  · unfold make ptrConv
    rw [hcls]
    simp [h1, h2]
  · unfold make
    rw [choose_eq, hk]
    cases direct <;> simp
  · unfold make
    rw [choose_eq, hk]
    simp
  · unfold make
    rw [choose_eq, hk]
    simp [he]

/-- **C106, arrays are checked.** A fixed extent beyond a `std::array` lvalue, or beyond a built-in array of exactly the element type, does
not compile; nor does it for any array if the conversion is implicit. -/
theorem C106_array_checked (C : Classes) {T : Elem} {ext : Nat} {direct : Bool} {s : Source} (he : ext ≠ dynamicExtent) (hn : s.len < ext)
    (hk : (s.kind = .stdArray ∧ (s.lvalue = true ∨ direct = false)) ∨ (s.kind = .builtin ∧ (s.elem = T ∨ direct = false))) :
    make C T ext direct s = none := by
  have hA : ofArray ext s.pos s.len = none := C53_span_array_checked ext s.pos s.len he hn
  unfold make
  rw [choose_eq]
  rcases hk with ⟨hk, hl⟩ | ⟨hk, hl⟩
  · rcases hl with hl | hl <;> cases h2 : s.const <;> cases h3 : s.lvalue <;> simp_all
  · rcases hl with hl | hl
    · subst hl
      cases direct <;> cases h2 : s.elem.const <;> simp_all
    · subst hl
      by_cases h : s.elem.cls = T.cls <;> cases h2 : s.elem.const <;> cases h3 : T.const <;> simp_all

/-- **C106 is false for arrays with direct initialisation.** If const is added to the elements of a built-in array, or the source is
a `std::array` rvalue, then the constructor for ranges is better, and a fixed extent beyond the array is not noticed: the elements behind the
array are read. -/
theorem C106_array_unchecked_violated (C : Classes) {T : Elem} (hT : T.const = true) {ext : Nat} {s : Source} {mem : List α} (hm : Fits mem)
    (hp : s.pos + s.len = mem.length) (hc : s.elem.cls = T.cls) (he : ext ≠ dynamicExtent) (hn : s.len < ext)
    (hk : (s.kind = .builtin ∧ s.elem.const = false) ∨ (s.kind = .stdArray ∧ s.lvalue = false)) :
    ∃ m, make C T ext true s = some m ∧ size m.span = ext ∧ m.get mem s.len = .ub := by
  have : ∃ m, make C T ext true s = some m := by
    unfold make
    rw [choose_eq]
    rcases hk with ⟨hk, h⟩ | ⟨hk, h⟩ <;> simp [hk, h, hc, hT, ptrConv, Source.pointee]
  obtain ⟨m, hmk⟩ := this
  obtain ⟨h1, -, h3⟩ := make_span hm (by omega) hmk
  refine ⟨m, hmk, by rw [h1]; exact size_static he _ _, ?_⟩
  have ha : m.similar = true := h3.mpr ⟨hc, fun st d h => by rcases hk with ⟨hk, _⟩ | ⟨hk, _⟩ <;> rw [hk] at h <;> cases h⟩
  rw [Made.get, ha, h1]
  simp [get, ofPtrCount, arrGet, hp]

/-- **C106 is false for derived classes.** Arrays of a derived class convert to spans of the base class, `std::array` and spans of
dynamic extent implicitly, and every element but the first is undefined. -/
theorem C106_derived_violated (C : Classes) {T : Elem} {ext : Nat} {direct : Bool} {s : Source} {mem : List α} (hm : Fits mem)
    (hp : s.pos + s.len ≤ mem.length) (hne : s.elem.cls ≠ T.cls) (hd : C.derived s.elem.cls T.cls = true)
    (hcn : s.ConstElems → T.const = true)
    (hk : direct = true ∨ s.kind = .stdArray ∨ ∃ d, s.kind = .span d) (hst : ∀ st d, s.kind = .range st d → st ≠ .noArrow)
    (he : ext = dynamicExtent) :
    ∃ m, make C T ext direct s = some m ∧ size m.span = s.len ∧ ∀ i, 0 < i → m.get mem i = .ub := by
  rw [← pointee_const] at hcn
  have hconv : ptrConv C s.pointee T = true := by
    have hcls : s.pointee.cls = s.elem.cls := by unfold Source.pointee; split <;> rfl
    cases h1 : s.pointee.const <;> cases h3 : T.const <;> simp_all [ptrConv]
  have hA : ofArray ext s.pos s.len = some (ofPtrCount ext (some s.pos) s.len) := by
    rw [ofArray, if_pos (Or.inl he)]
  have : ∃ m, make C T ext direct s = some m := by
    unfold make
    rw [choose_eq]
    simp only [hconv, if_true]
    rcases s with ⟨k, e, c, l, p, n⟩
    cases k with
    | builtin => simp_all
    | stdArray => cases l <;> cases c <;> cases direct <;> simp_all
    | span d => cases l <;> cases c <;> cases direct <;> simp_all
    | range st d => cases st <;> simp_all
  obtain ⟨m, hmk⟩ := this
  obtain ⟨h1, -, h3⟩ := make_span hm hp hmk
  refine ⟨m, hmk, ?_, fun i hi => ?_⟩
  · rw [h1, he]; exact size_dyn _ _
  · have : m.similar = false := by
      rcases hs : m.similar with _ | _
      · rfl
      · exact absurd (h3.mp hs).1 hne
    rw [Made.get, this, if_neg]
    simp; omega

/-- **C106 is false for ranges that are not contiguous.** A span can be made of an `std::deque` or `std::list`, and every element
but the first is undefined. -/
theorem C106_not_contiguous_violated (C : Classes) {T : Elem} {ext : Nat} {s : Source} {mem : List α} (hm : Fits mem)
    (hp : s.pos + s.len ≤ mem.length) (hc : s.elem.cls = T.cls) (hcn : s.ConstElems → T.const = true)
    {d : Bool} (hk : s.kind = .range .arrow d) :
    ∃ m, make C T ext true s = some m ∧ size m.span = (if ext = dynamicExtent then s.len else ext) ∧
      ∀ i, 0 < i → m.get mem i = .ub := by
  rw [← pointee_const] at hcn
  have : ∃ m, make C T ext true s = some m := by
    unfold make
    rw [choose_eq]
    have hcls : s.pointee.cls = s.elem.cls := by unfold Source.pointee; split <;> rfl
    cases h1 : s.pointee.const <;> cases h3 : T.const <;> simp_all [ptrConv]
  obtain ⟨m, hmk⟩ := this
  obtain ⟨h1, -, h3⟩ := make_span hm hp hmk
  refine ⟨m, hmk, by rw [h1]; unfold size ofPtrCount; split <;> simp_all, fun i hi => ?_⟩
  have : m.similar = false := by
    rcases hs : m.similar with _ | _
    · rfl
    · have := (h3.mp hs).2 _ _ hk
      cases this
  rw [Made.get, this, if_neg]
  simp; omega

/-- A `std::array<int, 3>` as a `span<int const, 2>`. -/
example : let s : Source := ⟨.stdArray, ⟨0, false⟩, false, true, 1, 3⟩
    s.ArrayOf 0 ∧ ∃ m, make ⟨fun _ _ => false⟩ ⟨0, true⟩ 2 false s = some m ∧ m.get [7, 8, 9, 10] 1 = .ok 9 :=
  ⟨⟨rfl, fun _ _ h => by cases h⟩, _, rfl, rfl⟩

/-- An `int[3]` as a `span<int const, 5>`, with braces and by an implicit conversion. -/
example : let s : Source := ⟨.builtin, ⟨0, false⟩, false, true, 0, 3⟩
    (make ⟨fun _ _ => false⟩ ⟨0, true⟩ 5 true s).isSome ∧ make ⟨fun _ _ => false⟩ ⟨0, true⟩ 5 false s = none := by decide

/-- Class 1 is derived from class 0: a `std::array` of it as a span of the base class, and an `std::list<int>` as a span. -/
example : let C : Classes := ⟨fun d b => d = 1 ∧ b = 0⟩
    (make C ⟨0, false⟩ dynamicExtent false ⟨.stdArray, ⟨1, false⟩, false, true, 0, 3⟩).isSome ∧
    (make C ⟨0, false⟩ dynamicExtent true ⟨.range .arrow true, ⟨0, false⟩, false, true, 0, 3⟩).isSome := by decide

end Verif.Span
