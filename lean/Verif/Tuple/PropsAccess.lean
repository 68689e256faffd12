import Verif.Tuple.Access

/-!
# Value categories of element access and structured bindings (C97, C98)

Specification: a use of an element is described by what can be done with it — it denotes a place, it is const or not, it may be moved
from (rvalue) or not.
-/

namespace Verif.TupleAccess

/-- The element is held by value. -/
def Ty.IsVal : Ty → Prop
  | .val _ => True
  | _ => False

/-- The element is an lvalue reference. -/
def Ty.IsL : Ty → Prop
  | .lref _ => True
  | _ => False

/-- An expression of the type is an rvalue, so that it may be moved from. -/
def Ty.IsR : Ty → Prop
  | .rref _ => True
  | _ => False

/-- `r` is the type of a use of an element of type `T` of a tuple given as `k`, as with `std::get`: a reference to the same object type,
const if the element is or if it is a value of a const tuple, an rvalue if the tuple is one unless the element is an lvalue
reference. -/
structure Preserves (k : Cat) (T r : Ty) : Prop where
  reference : ¬ r.IsVal
  name : r.obj.name = T.obj.name
  const : r.obj.const = true ↔ T.obj.const = true ∨ (k.const = true ∧ T.IsVal)
  rvalue : r.IsR ↔ k.rvalue = true ∧ ¬ T.IsL

theorem resolve_all (k : Cat) : resolve k allOvs = some (if k.const then .clvr else if k.rvalue then .rvr else .lvr) := by
  rcases k with ⟨c, r⟩
  cases c <;> cases r <;> decide

theorem resolve_fold (k : Cat) : resolve k [.clvr, .rvr] = some (if !k.const && k.rvalue then .rvr else .clvr) := by
  rcases k with ⟨c, r⟩
  cases c <;> cases r <;> decide

theorem type_preserves (k : Cat) (hk : ¬ (k.const = true ∧ k.rvalue = true)) (T : Ty) :
    Preserves k T ((if k.const then Ov.clvr else if k.rvalue then .rvr else .lvr).type T) := by
  rcases k with ⟨c, r⟩
  cases c <;> cases r <;> simp at hk <;> cases T <;>
    constructor <;> simp [Ov.type, Ty.addConst, Ty.addL, Ty.addR, Ty.obj, Ty.IsVal, Ty.IsL, Ty.IsR]

/-- **C97.** Indexing, `get<I>` and `apply` give the element itself — the same place, no copy — with the constness and value category of
the tuple. Missing: tuples given as const rvalues, see the next theorem. -/
theorem C97_access_partial (k : Cat) (hk : ¬ (k.const = true ∧ k.rvalue = true)) (t : List Elem) :
    (∀ (i : Nat) (e : Elem), t[i]? = some e → ∃ r, index k t i = .ok (r, e.place) ∧ get k t i = .ok (r, e.place) ∧ Preserves k e.ty r) ∧
    ∃ as, apply k t = .ok as ∧ as.length = t.length ∧
      ∀ (i : Nat) (e : Elem), t[i]? = some e → ∃ r, as[i]? = some (r, e.place) ∧ Preserves k e.ty r := by
  refine ⟨fun i e he => ⟨_, ?_, ?_, type_preserves k hk e.ty⟩, ?_⟩
  · simp [index, resolve_all, he]
  · simp [get, index, resolve_all, he]
  · refine ⟨_, by rw [apply, resolve_all], by simp, fun i e he => ⟨_, by rw [List.getElem?_map, he]; rfl, type_preserves k hk e.ty⟩⟩

/-- A tuple of a value, a reference to const and an rvalue reference, given as rvalue: the first and the last may be moved from. -/
example : apply ⟨false, true⟩ [⟨.val ⟨0, false⟩, 10⟩, ⟨.lref ⟨1, true⟩, 11⟩, ⟨.rref ⟨2, false⟩, 12⟩] =
    .ok [(.rref ⟨0, false⟩, 10), (.lref ⟨1, true⟩, 11), (.rref ⟨2, false⟩, 12)] := by decide

/-- **C97 fails for const rvalues.** They are taken for lvalues: an element that is not an lvalue reference is given as an lvalue, even
an rvalue reference to an object that is not const, which then cannot be moved from. -/
theorem C97_const_rvalue_violated (t : List Elem) (i : Nat) (e : Elem) (he : t[i]? = some e) (hl : ¬ e.ty.IsL) :
    ∃ r, get ⟨true, true⟩ t i = .ok (r, e.place) ∧ ¬ r.IsR ∧ ¬ Preserves ⟨true, true⟩ e.ty r := by
  have : ¬ (Ov.clvr.type e.ty).IsR := by
    rcases h : e.ty with o | o | o <;> simp [Ov.type, Ty.addConst, Ty.addL, Ty.IsR]
  refine ⟨Ov.clvr.type e.ty, by simp [get, index, resolve_all, he], this, fun hp => this (hp.rvalue.2 ⟨rfl, hl⟩)⟩

example : get ⟨true, true⟩ [⟨.rref ⟨2, false⟩, 12⟩] 0 = .ok (.lref ⟨2, false⟩, 12) ∧ ¬ (Ty.rref ⟨2, false⟩).IsL := by
  refine ⟨by decide, by simp [Ty.IsL]⟩

/-- **C97, no element is lost unasked.** From a tuple that is const or an lvalue no access gives an rvalue, and from a const tuple none
gives a value element that is not const. -/
theorem C97_safe (k : Cat) (t : List Elem) (i : Nat) (r : Ty) (p : Nat) (h : get k t i = .ok (r, p)) :
    (k.const = true ∨ k.rvalue = false → ¬ r.IsR) ∧
    (k.const = true → ∀ e, t[i]? = some e → e.ty.IsVal → r.obj.const = true) := by
  simp only [get, index, resolve_all] at h
  cases he : t[i]? with
  | none => simp [he] at h
  | some e =>
    simp only [he, Res.ok.injEq, Prod.mk.injEq] at h
    obtain ⟨rfl, rfl⟩ := h
    rcases k with ⟨c, v⟩
    refine ⟨?_, ?_⟩
    · cases c <;> cases v <;> rcases hT : e.ty with o | o | o <;> simp [Ov.type, Ty.addConst, Ty.addL, Ty.IsR]
    · intro hc e' he' hv
      obtain rfl : e = e' := by simpa using he'
      obtain rfl : c = true := hc
      rcases hT : e.ty with o | o | o <;> simp_all [Ov.type, Ty.addConst, Ty.addL, Ty.obj, Ty.IsVal]

/-- **C97, by type.** `get<U>` is the element found by `U`, if there is just one, exactly as by its index. -/
theorem C97_by_type (fs : List (Nat → Ty)) (k : Cat) (t : List Elem) (U : Ty) (i : Nat) (e : Elem) (he : t[i]? = some e)
    (hm : e.ty = U ∨ ∃ f ∈ fs, f e.ty.obj.name = U)
    (hu : ∀ (j : Nat) (e' : Elem), t[j]? = some e' → (e'.ty = U ∨ ∃ f ∈ fs, f e'.ty.obj.name = U) → j = i) :
    getT fs k t U = get k t i := by
  have hM : ∀ e' : Elem, matchesTy fs U e' = true ↔ (e'.ty = U ∨ ∃ f ∈ fs, f e'.ty.obj.name = U) := by
    intro e'; simp [matchesTy, List.any_eq_true]
  have hi : i < t.length := (List.getElem?_eq_some_iff.1 he).1
  have hsplit : t = t.take i ++ e :: t.drop (i + 1) := by
    have h1 : t[i] = e := (List.getElem?_eq_some_iff.1 he).2
    rw [← h1, List.getElem_cons_drop, List.take_append_drop]
  have hf : t.filter (matchesTy fs U) = [e] := by
    rw [hsplit, List.filter_append, List.filter_cons, if_pos ((hM e).2 hm)]
    have h1 : (t.take i).filter (matchesTy fs U) = [] := by
      rw [List.filter_eq_nil_iff]
      intro x hx hx'
      obtain ⟨j, hj⟩ := List.mem_iff_getElem?.1 hx
      have hj' : j < i := by
        have := (List.getElem?_eq_some_iff.1 hj).1
        simp at this; omega
      rw [List.getElem?_take_of_lt hj'] at hj
      have := hu j x hj ((hM x).1 hx')
      omega
    have h2 : (t.drop (i + 1)).filter (matchesTy fs U) = [] := by
      rw [List.filter_eq_nil_iff]
      intro x hx hx'
      obtain ⟨j, hj⟩ := List.mem_iff_getElem?.1 hx
      rw [List.getElem?_drop] at hj
      have := hu _ x hj ((hM x).1 hx')
      omega
    rw [h1, h2]; rfl
  simp [getT, get, index, resolve_all, hf, he]

example : getT [] ⟨false, false⟩ [⟨.val ⟨0, false⟩, 10⟩, ⟨.val ⟨1, false⟩, 11⟩] (.val ⟨1, false⟩) = .ok (.lref ⟨1, false⟩, 11) := by decide

/-- **C97, not removed from the candidates.** An index out of bounds, a type that is not there and a type that is there more than once
make the program ill-formed, although the documentation says that the function using `get` is then removed from the candidates. -/
theorem C97_sfinae_violated (fs : List (Nat → Ty)) (k : Cat) (t : List Elem) :
    (∀ i, t.length ≤ i → get k t i = .illFormed) ∧
    (∀ U, (∀ e ∈ t, matchesTy fs U e = false) → getT fs k t U = .illFormed) ∧
    (∀ U, 2 ≤ t.countP (matchesTy fs U) → getT fs k t U = .illFormed) := by
  refine ⟨fun i hi => ?_, fun U hU => ?_, fun U hU => ?_⟩
  · simp [get, index, resolve_all, List.getElem?_eq_none hi]
  · have : t.filter (matchesTy fs U) = [] := by
      rw [List.filter_eq_nil_iff]; intro e he; simp [hU e he]
    simp [getT, resolve_all, this]
  · rw [List.countP_eq_length_filter] at hU
    simp only [getT, resolve_all]
    split
    · rename_i h; rw [h] at hU; simp at hU
    · rfl

/-- **C97, forwarding.** Applying a function to the tuple that `forward_as_tuple` returns calls it with exactly the arguments: the same
objects, lvalues as lvalues and rvalues as rvalues. Through a named tuple all of them arrive as lvalues. -/
theorem C97_forward (as : List Arg) :
    apply ⟨false, true⟩ (forwardAsTuple as) =
      .ok (as.map fun a => (if a.rvalue then .rref a.obj else .lref a.obj, a.place)) ∧
    apply ⟨false, false⟩ (forwardAsTuple as) = .ok (as.map fun a => (.lref a.obj, a.place)) := by
  constructor
  · simp only [apply, resolve_all, forwardAsTuple, List.map_map, Res.ok.injEq]
    refine List.map_congr_left fun a _ => ?_
    cases h : a.rvalue <;> simp [Arg.ty, h, Ov.type, Ty.addR]
  · simp only [apply, resolve_all, forwardAsTuple, List.map_map, Res.ok.injEq]
    refine List.map_congr_left fun a _ => ?_
    cases h : a.rvalue <;> simp [Arg.ty, h, Ov.type, Ty.addL]

example : apply ⟨false, true⟩ (forwardAsTuple [⟨⟨0, true⟩, false, 5⟩, ⟨⟨1, false⟩, true, 6⟩]) =
    .ok [(.lref ⟨0, true⟩, 5), (.rref ⟨1, false⟩, 6)] := by decide

/-- **C97, folds.** The folds and `join` give the elements as `apply` does on an rvalue that is not const, and otherwise as `apply` does on
a const lvalue, even if the tuple is not const. -/
theorem C97_fold (t : List Elem) :
    foldArgs ⟨false, true⟩ t = apply ⟨false, true⟩ t ∧ ∀ k : Cat, k ≠ ⟨false, true⟩ → foldArgs k t = apply ⟨true, false⟩ t := by
  refine ⟨by simp [foldArgs, apply, resolve_fold, resolve_all], fun k hk => ?_⟩
  have : (!k.const && k.rvalue) = false := by
    rcases k with ⟨c, r⟩
    cases c <;> cases r <;> simp_all
  simp [foldArgs, apply, resolve_fold, resolve_all, this]

/-- **C97, `tail`.** The tail has the types of the remaining elements; its references refer to the same objects. It is rejected only when
an rvalue reference would have to be copied: never for an rvalue, and for an lvalue exactly if one of the remaining elements is
one. -/
theorem C97_tail (t : List Elem) :
    (∃ u, tail ⟨false, true⟩ t = .ok u ∧ u.map (·.1) = t.tail.map (·.ty) ∧
      ∀ (i : Nat) (e : Elem), t[i + 1]? = some e → ¬ e.ty.IsVal → u[i]? = some (e.ty, some e.place)) ∧
    ∀ k : Cat, k ≠ ⟨false, true⟩ → (tail k t = .illFormed ↔ ∃ e ∈ t.tail, e.ty.IsR) := by
  constructor
  · refine ⟨t.tail.map fun e => (e.ty, match e.ty with | .val _ => none | _ => some e.place), ?_, ?_, ?_⟩
    · simp only [tail, resolve_fold, Bool.not_false, Bool.true_and, if_true]
      refine if_pos ?_
      rw [List.all_eq_true]
      intro e _
      rcases h : e.ty with o | o | o <;> simp [initialises, Ov.type, Ty.addR, Ty.obj]
    · simp [List.map_map, Function.comp_def]
    · intro i e he hv
      rw [List.getElem?_map, List.getElem?_tail, he]
      rcases h : e.ty with o | o | o <;> simp_all [Ty.IsVal]
  · intro k hk
    have : (!k.const && k.rvalue) = false := by
      rcases k with ⟨c, r⟩
      cases c <;> cases r <;> simp_all
    have hi : ∀ T : Ty, initialises T (Ov.clvr.type T) = false ↔ T.IsR := by
      intro T
      rcases T with o | o | o <;> simp [initialises, Ov.type, Ty.addConst, Ty.addL, Ty.obj, Ty.IsR]
    simp only [tail, resolve_fold, this, Bool.false_eq_true, if_false]
    split
    · rename_i h
      rw [List.all_eq_true] at h
      simp only [reduceCtorEq, false_iff, not_exists, not_and]
      intro e he hr
      have := h e he
      rw [(hi e.ty).2 hr] at this
      cases this
    · rename_i h
      simp only [true_iff]
      rw [List.all_eq_true] at h
      simp only [Classical.not_forall] at h
      obtain ⟨e, he, h⟩ := h
      exact ⟨e, he, (hi e.ty).1 (by simpa using h)⟩

example : tail ⟨false, false⟩ [⟨.val ⟨0, false⟩, 1⟩, ⟨.rref ⟨1, false⟩, 2⟩] = .illFormed ∧
    tail ⟨false, true⟩ [⟨.val ⟨0, false⟩, 1⟩, ⟨.rref ⟨1, false⟩, 2⟩] = .ok [(.rref ⟨1, false⟩, some 2)] := by decide

/-! ## C98 -/

/-- **C98.** A structured binding names the elements: each name denotes the element itself, or the object it refers to; for a value
element its type is that of the element, const if the tuple is. Missing: elements of const type, see the next theorem; and the type of
a name for a reference is that of the object, not the reference. -/
theorem C98_bindings_partial (c l : Bool) (e : Elem) (h : e.ty.obj.const = true → c = true) :
    ∃ T, bindName c l e = .ok (T, e.place) ∧ T.obj.name = e.ty.obj.name ∧
      (T.obj.const = true ↔ c = true) ∧ (e.ty.IsVal → T = if c then e.ty.addConst else e.ty) := by
  rcases e with ⟨T, p⟩
  rcases T with ⟨n, b⟩ | ⟨n, b⟩ | ⟨n, b⟩ <;> cases b <;> cases c <;> cases l <;>
    simp_all [bindName, get, index, resolve_all, stdElement, Ov.type, Ty.addConst, Ty.addL, Ty.addR, Ty.removeCvref, Ty.obj,
      initialises, Ty.IsVal]

example : bindName true true ⟨.val ⟨0, false⟩, 7⟩ = .ok (.val ⟨0, true⟩, 7) ∧ bindName false false ⟨.lref ⟨0, false⟩, 7⟩ = .ok (.val ⟨0, false⟩, 7) := by
  decide

/-- **C98 fails for const elements.** A binding that does not itself say `const` is rejected if an element is const or refers to a const
object. -/
theorem C98_const_element_violated (l : Bool) (e : Elem) (h : e.ty.obj.const = true) : bindName false l e = .illFormed := by
  rcases e with ⟨T, p⟩
  rcases T with ⟨n, b⟩ | ⟨n, b⟩ | ⟨n, b⟩ <;> cases b <;> cases l <;>
    simp_all [bindName, get, index, resolve_all, stdElement, Ov.type, Ty.addConst, Ty.addL, Ty.addR, Ty.removeCvref, Ty.obj,
      initialises]

example : (Ty.lref ⟨0, true⟩).obj.const = true := rfl

end Verif.TupleAccess
