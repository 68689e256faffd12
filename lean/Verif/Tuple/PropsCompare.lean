import Verif.Tuple.Compare
import Verif.Tuple.Props

/-!
# Comparison of tuples of any types (C126)
-/

namespace Verif.TupleCompare

open Verif.Tuple (Cmp opEq opCmp Lex)

variable {Ty κ V : Type} [DecidableEq Ty]

/-! ## Specification -/

/-- Tuples that may be compared: the same number of elements, corresponding ones comparable. -/
def Comparable (w : Ty → Ty → Bool) (A B : Cls Ty κ) : Prop :=
  A.ts.length = B.ts.length ∧ ∀ i (h : i < A.ts.length) (h' : i < B.ts.length), w A.ts[i] B.ts[i] = true

/-- Both have an element of the same type, with the same index keys, at the index. -/
def SharedAt (T : Types Ty κ V) (A B : Cls Ty κ) (i : Nat) (t : Ty) : Prop :=
  A.ts[i]? = some t ∧ B.ts[i]? = some t ∧ (A.fs.map fun f => T.key f t) = B.fs.map fun f => T.key f t

/-- That happens at one index only. -/
def OnlyShared (T : Types Ty κ V) (A B : Cls Ty κ) (i : Nat) (t : Ty) : Prop :=
  SharedAt T A B i t ∧ ∀ j u, SharedAt T A B j u → j = i

/-! ## Lemmas -/

omit [DecidableEq Ty] in
theorem wholeViable_iff (w : Ty → Ty → Bool) : ∀ (ts us : List Ty), wholeViable w ts us = true ↔
    ts.length = us.length ∧ ∀ i (h : i < ts.length) (h' : i < us.length), w ts[i] us[i] = true
  | [], [] => by simp [wholeViable]
  | [], _ :: _ => by simp [wholeViable]
  | _ :: _, [] => by simp [wholeViable]
  | t :: ts, u :: us => by
    rw [wholeViable, Bool.and_eq_true, wholeViable_iff w ts us]
    constructor
    · rintro ⟨h0, hl, h⟩
      refine ⟨by simp [hl], fun i hi hi' => ?_⟩
      cases i with
      | zero => exact h0
      | succ i => exact h i (by simpa using hi) (by simpa using hi')
    · rintro ⟨hl, h⟩
      exact ⟨h 0 (by simp) (by simp), by simpa using hl, fun i hi hi' => h (i + 1) (by simpa using hi) (by simpa using hi')⟩

omit [DecidableEq Ty] in
theorem mem_bases (T : Types Ty κ V) (A : Cls Ty κ) (e : El Ty) : e ∈ A.bases T ↔
    A.ts[e.idx]? = some e.ty ∧ e.keys = A.fs.map fun f => T.key f e.ty := by
  unfold Cls.bases
  rw [List.mem_map]
  constructor
  · rintro ⟨⟨t, i⟩, hm, rfl⟩
    exact ⟨List.mem_zipIdx_iff_getElem?.mp hm, rfl⟩
  · rintro ⟨h1, h2⟩
    refine ⟨(e.ty, e.idx), List.mem_zipIdx_iff_getElem?.mpr h1, ?_⟩
    obtain ⟨i, t, k⟩ := e
    simp only at h2
    simp [h2]

theorem bases_nodup (T : Types Ty κ V) (A : Cls Ty κ) : (A.bases T).Nodup := by
  have h : ((A.bases T).map El.idx) = List.range A.ts.length := by
    unfold Cls.bases
    rw [List.map_map]
    have : (El.idx ∘ fun p : Ty × Nat => (⟨p.2, p.1, A.fs.map fun f => T.key f p.1⟩ : El Ty)) = Prod.snd := rfl
    rw [this, List.zipIdx_eq_zip_range', List.map_snd_zip (by simp), List.range_eq_range']
  exact List.Pairwise.of_map El.idx (fun a b hab e => hab (congrArg El.idx e)) (h ▸ List.nodup_range)

/-- The elements that are bases of both. -/
def common (T : Types Ty κ V) (A B : Cls Ty κ) : List (El Ty) := (A.bases T).filter fun e => decide (e ∈ B.bases T)

theorem mem_common (T : Types Ty κ V) (A B : Cls Ty κ) (e : El Ty) : e ∈ common T A B ↔
    SharedAt T A B e.idx e.ty ∧ e.keys = A.fs.map fun f => T.key f e.ty := by
  unfold common SharedAt
  rw [List.mem_filter, decide_eq_true_eq, mem_bases, mem_bases]
  constructor
  · rintro ⟨⟨h1, h2⟩, h3, h4⟩
    exact ⟨⟨h1, h3, h2 ▸ h4⟩, h2⟩
  · rintro ⟨⟨h1, h3, h4⟩, h2⟩
    exact ⟨⟨h1, h2⟩, h3, h2 ▸ h4⟩

theorem resolve_whole (T : Types Ty κ V) (w : Ty → Ty → Bool) (A B : Cls Ty κ) (vs us : List V)
    (h : wholeViable w A.ts B.ts = true) : resolve T w (.tup A vs) (.tup B us) = some (.whole false) := by
  unfold resolve cands
  simp only [h, if_true, List.cons_append, List.nil_append]
  rw [List.find?_cons_of_pos]
  rw [List.all_eq_true]
  intro d hd
  rcases List.mem_cons.mp hd with rfl | hd
  · simp
  · rcases List.mem_append.mp hd with hd | hd
    · split at hd
      · rw [List.mem_singleton.mp hd]; rfl
      · cases hd
    · obtain ⟨e, _, rfl⟩ := List.mem_map.mp hd
      rfl

theorem resolve_part (T : Types Ty κ V) (w : Ty → Ty → Bool) (A B : Cls Ty κ) (vs us : List V)
    (h1 : wholeViable w A.ts B.ts = false) (h2 : wholeViable w B.ts A.ts = false) (c : Cand Ty) :
    resolve T w (.tup A vs) (.tup B us) = some c ↔ ∃ e, c = .part e ∧ common T A B = [e] := by
  have hcs : cands T w (.tup A vs) (.tup B us) = (common T A B).map .part := by
    simp [cands, h1, h2, common]
  have hnd : (common T A B).Nodup := (bases_nodup T A).filter _
  unfold resolve
  rw [hcs]
  constructor
  · intro h
    have hm := List.mem_of_find?_eq_some h
    have hp := List.find?_some h
    obtain ⟨e, he, rfl⟩ := List.mem_map.mp hm
    refine ⟨e, rfl, ?_⟩
    rw [List.all_eq_true] at hp
    have hall : ∀ d ∈ common T A B, d = e := by
      intro d hd
      have := hp _ (List.mem_map_of_mem hd)
      simpa [Cand.better] using this
    generalize common T A B = l at he hnd hall
    match l, he, hnd, hall with
    | [x], _, _, hall => rw [hall x (List.mem_cons_self ..)]
    | x :: y :: l, _, hnd, hall =>
      have hx := hall x (List.mem_cons_self ..)
      have hy := hall y (List.mem_cons_of_mem _ (List.mem_cons_self ..))
      exact absurd (hx.trans hy.symm) (fun hxy => (List.nodup_cons.mp hnd).1 (hxy ▸ List.mem_cons_self ..))
  · rintro ⟨e, rfl, hc⟩
    rw [hc]
    simp

theorem common_singleton_iff (T : Types Ty κ V) (A B : Cls Ty κ) (i : Nat) (t : Ty) :
    OnlyShared T A B i t ↔ common T A B = [⟨i, t, A.fs.map fun f => T.key f t⟩] := by
  have hnd : (common T A B).Nodup := (bases_nodup T A).filter _
  constructor
  · rintro ⟨hs, ho⟩
    have hm : (⟨i, t, A.fs.map fun f => T.key f t⟩ : El Ty) ∈ common T A B := (mem_common T A B _).mpr ⟨hs, rfl⟩
    have hall : ∀ d ∈ common T A B, d = ⟨i, t, A.fs.map fun f => T.key f t⟩ := by
      intro d hd
      obtain ⟨h1, h2⟩ := (mem_common T A B d).mp hd
      have hi := ho _ _ h1
      obtain ⟨j, u, k⟩ := d
      simp only at hi h1 h2
      subst hi
      have : u = t := Option.some.inj (h1.1.symm.trans hs.1)
      subst this
      rw [h2]
    generalize common T A B = l at hm hnd hall
    match l, hm, hnd, hall with
    | [x], _, _, hall => rw [hall x (List.mem_cons_self ..)]
    | x :: y :: l, _, hnd, hall =>
      have hx := hall x (List.mem_cons_self ..)
      have hy := hall y (List.mem_cons_of_mem _ (List.mem_cons_self ..))
      exact absurd (hx.trans hy.symm) (fun hxy => (List.nodup_cons.mp hnd).1 (hxy ▸ List.mem_cons_self ..))
  · intro h
    have hm : (⟨i, t, A.fs.map fun f => T.key f t⟩ : El Ty) ∈ common T A B := by rw [h]; exact List.mem_singleton.mpr rfl
    refine ⟨((mem_common T A B _).mp hm).1, fun j u hj => ?_⟩
    have : (⟨j, u, A.fs.map fun f => T.key f u⟩ : El Ty) ∈ common T A B := (mem_common T A B _).mpr ⟨hj, rfl⟩
    rw [h] at this
    exact congrArg El.idx (List.mem_singleton.mp this)

omit [DecidableEq Ty] in
theorem not_viable {w : Ty → Ty → Bool} {A B : Cls Ty κ} (h : ¬ Comparable w A B) : wholeViable w A.ts B.ts = false := by
  cases hv : wholeViable w A.ts B.ts
  · rfl
  · exact absurd ((wholeViable_iff w _ _).mp hv) h

omit [DecidableEq Ty] in
theorem Comparable.symm {w : Ty → Ty → Bool} (hw : ∀ t u, w t u = w u t) {A B : Cls Ty κ} (h : Comparable w A B) :
    Comparable w B A := ⟨h.1.symm, fun i hi hi' => by rw [hw]; exact h.2 i hi' hi⟩

omit [DecidableEq Ty] in
theorem get_typed {c : Cls Ty κ} {vs : List V} (hl : vs.length = c.ts.length) {i : Nat} {t : Ty} (h : c.ts[i]? = some t) :
    ∃ v, vs[i]? = some v ∧ Tuple.get (Operand.tup c vs).typed i = .ok (t, v) := by
  obtain ⟨hi, rfl⟩ := List.getElem?_eq_some_iff.mp h
  have hi' : i < vs.length := by omega
  refine ⟨vs[i], by simp [hi'], ?_⟩
  have : i < ((Operand.tup c vs).typed).length := by simp [Operand.typed]; omega
  rw [Tuple.get_eq this]
  simp [Operand.typed]

/-! ## Theorems -/

/-- C126 (what is missing: tuples that are not comparable are not always rejected; see below), equality.  Tuples of the same
number of elements with comparable elements can be compared, whatever their index functions; they are equal exactly if
all elements are. -/
theorem C126_equality_partial (T : Types Ty κ V) (A B : Cls Ty κ) (vs us : List V) (hA : vs.length = A.ts.length)
    (hB : us.length = B.ts.length) (h : Comparable T.eqWith A B) :
    ∃ r, equal T (.tup A vs) (.tup B us) = some (.ok r) ∧
      (r = true ↔ ∀ i (h1 : i < A.ts.length) (h2 : i < B.ts.length) (h3 : i < vs.length) (h4 : i < us.length),
        T.eq A.ts[i] B.ts[i] vs[i] us[i] = true) := by
  have hr := resolve_whole T T.eqWith A B vs us ((wholeViable_iff _ _ _).mpr h)
  have hlen : ((Operand.tup A vs).typed).length = ((Operand.tup B us).typed).length := by
    simp only [Operand.typed, List.length_zip, hA, hB, h.1]
  obtain ⟨b, n, h1, h2, _⟩ := Tuple.C60_equality (fun _ (x y : Ty × V) => T.eq x.1 y.1 x.2 y.2) _ _ hlen
  refine ⟨b, ?_, ?_⟩
  · unfold equal
    rw [hr]
    simp only [h1]
    rfl
  · rw [h2]
    have hl : ((Operand.tup A vs).typed).length = A.ts.length := by simp [Operand.typed, hA]
    constructor
    · intro hh i g1 g2 g3 g4
      have := hh i (by omega)
      simpa [Operand.typed] using this
    · intro hh i hi
      have := hh i (by omega) (by rw [← h.1]; omega) (by omega) (by rw [hB, ← h.1]; omega)
      simpa [Operand.typed] using this

/-- C126 (what is missing: see `C126_equality_partial`), order.  For such tuples `<=>` is the lexicographic comparison. -/
theorem C126_order_partial (T : Types Ty κ V) (A B : Cls Ty κ) (vs us : List V) (hA : vs.length = A.ts.length)
    (hB : us.length = B.ts.length) (h : Comparable T.cmpWith A B) :
    ∃ c, compare T (.tup A vs) (.tup B us) = some (.ok c) ∧
      Lex (fun _ x y => T.cmp x.1 y.1 x.2 y.2) 0 (A.ts.zip vs) (B.ts.zip us) c := by
  have hr := resolve_whole T T.cmpWith A B vs us ((wholeViable_iff _ _ _).mpr h)
  have hlen : (A.ts.zip vs).length = (B.ts.zip us).length := by
    simp only [List.length_zip, hA, hB, h.1]
  obtain ⟨c, h1, h2⟩ := Tuple.C60_three_way (fun _ (x y : Ty × V) => T.cmp x.1 y.1 x.2 y.2) _ _ hlen
  refine ⟨c, ?_, h2⟩
  unfold compare
  rw [hr]
  exact congrArg some h1

/-- C126 is false: tuples that are not comparable, because they have different numbers of elements or elements that
cannot be compared, compile if exactly one index has the same element type in both, and are then compared by that element
alone. -/
theorem C126_one_shared_violated (T : Types Ty κ V) (hw : ∀ t u, T.eqWith t u = T.eqWith u t)
    (hc : ∀ t u, T.cmpWith t u = T.cmpWith u t) (A B : Cls Ty κ) (vs us : List V)
    (hA : vs.length = A.ts.length) (hB : us.length = B.ts.length) (i : Nat) (t : Ty) (hs : OnlyShared T A B i t) :
    ∃ v u, vs[i]? = some v ∧ us[i]? = some u ∧
      (¬ Comparable T.eqWith A B → T.eqSelf t = true →
        equal T (.tup A vs) (.tup B us) = some (.ok (T.eq t t v u))) ∧
      (¬ Comparable T.cmpWith A B → T.cmpSelf t = true →
        compare T (.tup A vs) (.tup B us) = some (.ok (T.cmp t t v u))) := by
  obtain ⟨v, hv, gv⟩ := get_typed hA hs.1.1
  obtain ⟨u, hu, gu⟩ := get_typed hB hs.1.2.1
  have hcm := (common_singleton_iff T A B i t).mp hs
  refine ⟨v, u, hv, hu, fun hn he => ?_, fun hn he => ?_⟩
  · have hr := (resolve_part T T.eqWith A B vs us (not_viable hn) (not_viable fun h => hn (h.symm hw)) _).mpr ⟨_, rfl, hcm⟩
    unfold equal
    rw [hr]
    simp only [he, if_true, gv, gu, Outcome.ok_bind, Outcome.pure_eq_ok]
  · have hr := (resolve_part T T.cmpWith A B vs us (not_viable hn) (not_viable fun h => hn (h.symm hc)) _).mpr ⟨_, rfl, hcm⟩
    unfold compare
    rw [hr]
    simp only [he, if_true, gv, gu, Outcome.ok_bind, Outcome.pure_eq_ok]

/-- C126 is false of every tuple of one element and every longer tuple that begins with an element of the same type:
`tuple{x} == tuple{y, ...}` compiles and tells whether `x == y`, and `<=>` compares `x` and `y`. -/
theorem C126_longer_violated (T : Types Ty κ V) (hw : ∀ t u, T.eqWith t u = T.eqWith u t)
    (hc : ∀ t u, T.cmpWith t u = T.cmpWith u t) (t t' : Ty) (ts : List Ty) (x y y' : V) (ys : List V)
    (hl : ys.length = ts.length) :
    let a : Operand Ty κ V := .tup ⟨[], [t]⟩ [x]
    let b : Operand Ty κ V := .tup ⟨[], t :: t' :: ts⟩ (y :: y' :: ys)
    (T.eqSelf t = true → equal T a b = some (.ok (T.eq t t x y))) ∧
    (T.cmpSelf t = true → compare T a b = some (.ok (T.cmp t t x y))) := by
  intro a b
  have hn : ∀ w : Ty → Ty → Bool, ¬ Comparable w (⟨[], [t]⟩ : Cls Ty κ) ⟨[], t :: t' :: ts⟩ := by
    intro w h
    have := h.1
    simp at this
  obtain ⟨v, u, hv, hu, h1, h2⟩ := C126_one_shared_violated T hw hc ⟨[], [t]⟩ ⟨[], t :: t' :: ts⟩ [x] (y :: y' :: ys) rfl
    (by simp [hl]) 0 t ⟨⟨rfl, rfl, rfl⟩, fun j u hj => by
      have := hj.1
      cases j with
      | zero => rfl
      | succ j => simp at this⟩
  simp only [List.getElem?_cons_zero, Option.some.injEq] at hv hu
  subst hv hu
  exact ⟨h1 (hn _), h2 (hn _)⟩

/-- C126: which comparisons compile: those of comparable tuples, and those of tuples that share exactly one element. -/
theorem C126_accepts_iff (T : Types Ty κ V) (hw : ∀ t u, T.eqWith t u = T.eqWith u t) (A B : Cls Ty κ) (vs us : List V) :
    (equal T (.tup A vs) (.tup B us)).isSome = true ↔
      Comparable T.eqWith A B ∨ ∃ i t, OnlyShared T A B i t ∧ T.eqSelf t = true := by
  by_cases h : Comparable T.eqWith A B
  · have hr := resolve_whole T T.eqWith A B vs us ((wholeViable_iff _ _ _).mpr h)
    unfold equal
    rw [hr]
    simp [h]
  · have hp := resolve_part T T.eqWith A B vs us (not_viable h) (not_viable fun g => h (g.symm hw))
    constructor
    · intro hs
      right
      unfold equal at hs
      cases hr : resolve T T.eqWith (.tup A vs) (.tup B us) with
      | none => rw [hr] at hs; cases hs
      | some c =>
        obtain ⟨e, rfl, he⟩ := (hp c).mp hr
        rw [hr] at hs
        have hem : e ∈ common T A B := by rw [he]; exact List.mem_singleton.mpr rfl
        obtain ⟨_, hk⟩ := (mem_common T A B e).mp hem
        refine ⟨e.idx, e.ty, (common_singleton_iff T A B _ _).mpr (by rw [he, ← hk]), ?_⟩
        cases hself : T.eqSelf e.ty
        · simp [hself] at hs
        · rfl
    · rintro (hc | ⟨i, t, ho, hself⟩)
      · exact absurd hc h
      · have hr := (hp _).mpr ⟨_, rfl, (common_singleton_iff T A B i t).mp ho⟩
        unfold equal
        rw [hr]
        simp [hself]

/-- C126, order: which comparisons compile.  In particular tuples of a type that has `<` but no `<=>` cannot be ordered,
although `std::tuple`s of it can (docs/tuple.adoc: "works the same way as with `std::tuple`"). -/
theorem C126_order_accepts_iff (T : Types Ty κ V) (hw : ∀ t u, T.cmpWith t u = T.cmpWith u t) (A B : Cls Ty κ) (vs us : List V) :
    ((compare T (.tup A vs) (.tup B us)).isSome = true ↔
      Comparable T.cmpWith A B ∨ ∃ i t, OnlyShared T A B i t ∧ T.cmpSelf t = true) ∧
    ((∃ t ∈ A.ts, T.cmpWith t t = false ∧ T.cmpSelf t = false) → compare T (.tup A vs) (.tup A us) = none) := by
  have key : ∀ B : Cls Ty κ, (compare T (.tup A vs) (.tup B us)).isSome = true ↔
      Comparable T.cmpWith A B ∨ ∃ i t, OnlyShared T A B i t ∧ T.cmpSelf t = true := by
    intro B
    by_cases h : Comparable T.cmpWith A B
    · have hr := resolve_whole T T.cmpWith A B vs us ((wholeViable_iff _ _ _).mpr h)
      unfold compare
      rw [hr]
      simp [h]
    · have hp := resolve_part T T.cmpWith A B vs us (not_viable h) (not_viable fun g => h (g.symm hw))
      constructor
      · intro hs
        right
        unfold compare at hs
        cases hr : resolve T T.cmpWith (.tup A vs) (.tup B us) with
        | none => rw [hr] at hs; cases hs
        | some c =>
          obtain ⟨e, rfl, he⟩ := (hp c).mp hr
          rw [hr] at hs
          have hem : e ∈ common T A B := by rw [he]; exact List.mem_singleton.mpr rfl
          obtain ⟨_, hk⟩ := (mem_common T A B e).mp hem
          refine ⟨e.idx, e.ty, (common_singleton_iff T A B _ _).mpr (by rw [he, ← hk]), ?_⟩
          cases hself : T.cmpSelf e.ty
          · simp [hself] at hs
          · rfl
      · rintro (hc | ⟨i, t, ho, hself⟩)
        · exact absurd hc h
        · have hr := (hp _).mpr ⟨_, rfl, (common_singleton_iff T A B i t).mp ho⟩
          unfold compare
          rw [hr]
          simp [hself]
  refine ⟨key B, ?_⟩
  rintro ⟨t, ht, h1, h2⟩
  obtain ⟨i, hi, rfl⟩ := List.getElem_of_mem ht
  cases hs : compare T (.tup A vs) (.tup A us) with
  | none => rfl
  | some c =>
    rcases (key A).mp (by rw [hs]; rfl) with hc | ⟨j, u, ho, hself⟩
    · rw [hc.2 i hi hi] at h1; cases h1
    · have := ho.2 i _ ⟨List.getElem?_eq_getElem hi, List.getElem?_eq_getElem hi, rfl⟩
      subst this
      have hu : u = A.ts[i] := Option.some.inj (ho.1.1.symm.trans (List.getElem?_eq_getElem hi))
      rw [hu, h2] at hself
      cases hself

/-- C126: no tuple can be compared with an object that is not a tuple, on either side. -/
theorem C126_non_tuple_rejected (T : Types Ty κ V) (A : Cls Ty κ) (vs : List V) :
    equal T (.tup A vs) .other = none ∧ equal T .other (.tup A vs) = none ∧
    compare T (.tup A vs) .other = none ∧ compare T .other (.tup A vs) = none := by
  refine ⟨?_, ?_, ?_, ?_⟩ <;> simp [equal, compare, resolve, cands]

/-! ## Instances: numbers of two types (0: `int`, 1: `long`), and a type without comparisons (2) -/

/-- Types 0 and 1 can be compared with each other, type 2 with nothing. -/
def exTypes : Types Nat Nat Int where
  key _ t := t
  eqWith t u := decide (t < 2) && decide (u < 2)
  eqSelf t := decide (t < 2)
  eq _ _ x y := decide (x = y)
  cmpWith t u := decide (t < 2) && decide (u < 2)
  cmpSelf t := decide (t < 2)
  cmp _ _ x y := if x < y then .less else if x = y then .equal else .greater

example : ∀ t u, exTypes.eqWith t u = exTypes.eqWith u t := fun t u => Bool.and_comm ..

/-- `tuple{1, 2L} == tuple{1L, 2}`. -/
example : Comparable exTypes.eqWith (⟨[], [0, 1]⟩ : Cls Nat Nat) ⟨[], [1, 0]⟩ ∧
    equal exTypes (.tup ⟨[], [0, 1]⟩ [1, 2]) (.tup ⟨[], [1, 0]⟩ [1, 2]) = some (.ok true) :=
  ⟨(wholeViable_iff _ _ _).mp rfl, by decide⟩

/-- `tuple{1} == tuple{1, 2}` is true; `tuple{1, 2, 3} == tuple{1, 2}` does not compile. -/
example : equal exTypes (.tup ⟨[], [0]⟩ [1]) (.tup ⟨[], [0, 0]⟩ [1, 2]) = some (.ok true) ∧
    equal exTypes (.tup ⟨[], [0, 0, 0]⟩ [1, 2, 3]) (.tup ⟨[], [0, 0]⟩ [1, 2]) = none := by decide

/-- Tuples of the same length whose other elements cannot be compared. -/
example : OnlyShared exTypes (⟨[], [0, 2]⟩ : Cls Nat Nat) ⟨[], [0, 1]⟩ 0 0 ∧
    ¬ Comparable exTypes.eqWith (⟨[], [0, 2]⟩ : Cls Nat Nat) ⟨[], [0, 1]⟩ := by
  refine ⟨(common_singleton_iff _ _ _ _ _).mpr (by decide), fun h => ?_⟩
  have := h.2 1 (by simp) (by simp)
  revert this
  decide

/-- A type without comparisons: two tuples of an `int` and such an object. -/
example : ∃ t ∈ (⟨[], [0, 2]⟩ : Cls Nat Nat).ts, exTypes.cmpWith t t = false ∧ exTypes.cmpSelf t = false :=
  ⟨2, by decide, by decide, by decide⟩

end Verif.TupleCompare
