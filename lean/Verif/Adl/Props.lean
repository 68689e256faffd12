import Verif.Adl.Model
import Verif.Algorithm.Props
import Verif.Tuple.PropsCat

/-!
# C125 (and C48, C49, C67): algorithms with types of the standard library
-/

namespace Verif.Adl

open Verif.Algorithm (World Cat Keeps Fits shift forEachSpec imfSpec unary)

variable {α σ : Type}

/-- The specification: a type is related to a namespace if it is a class of it, or derived from one, or made with one. -/
inductive Related (n : Ns) : Ty → Prop
  | cls (bases) : Related n (.cls n bases)
  | base {ns bases} : n ∈ bases → Related n (.cls ns bases)
  | template {c a} : Related n c → Related n (.inst c a)
  | argument {c a} : Related n a → Related n (.inst c a)
  | pointer {t} : Related n t → Related n (.ptr t)

theorem mem_assoc (n : Ns) (t : Ty) : n ∈ t.assoc ↔ Related n t := by
  induction t with
  | builtin => exact ⟨nofun, nofun⟩
  | cls ns bases =>
    constructor
    · intro h
      rcases List.mem_cons.mp h with rfl | h
      exacts [.cls _, .base h]
    · intro h
      cases h with
      | cls => exact List.mem_cons_self ..
      | base h => exact List.mem_cons_of_mem _ h
  | inst c a ihc iha =>
    constructor
    · intro h
      rcases List.mem_append.mp h with h | h
      exacts [.template (ihc.mp h), .argument (iha.mp h)]
    · intro h
      cases h with
      | template h => exact List.mem_append_left _ (ihc.mpr h)
      | argument h => exact List.mem_append_right _ (iha.mpr h)
  | ptr t ih =>
    exact ⟨fun h => .pointer (ih.mp h), fun h => by cases h with | pointer h => exact ih.mpr h⟩

/-- Some argument has a type related to the standard library. -/
def AnyStd (tys : List Ty) : Prop := ∃ t ∈ tys, Related .std t

theorem any_iff (tys : List Ty) : (tys.any fun t => decide (Ns.std ∈ t.assoc)) = true ↔ AnyStd tys := by
  simp only [List.any_eq_true, decide_eq_true_eq]
  exact ⟨fun ⟨t, h, hs⟩ => ⟨t, h, (mem_assoc _ _).mp hs⟩, fun ⟨t, h, hs⟩ => ⟨t, h, (mem_assoc _ _).mpr hs⟩⟩

/-- The lookup of a call when the standard library's function is in question. -/
theorem callee_eq (home std : Fn) (hs : std.ns = .std) (declared : Bool) (args : List Ty) [Decidable (AnyStd args)] :
    callee home (if declared then [std] else []) args =
      callee home (if declared = true ∧ AnyStd args then [std] else []) (args.map fun _ => .cls .std []) := by
  unfold callee lookup
  cases args with
  | nil =>
    have h0 : ¬ AnyStd ([] : List Ty) := fun ⟨t, h, _⟩ => by cases h
    cases declared <;> simp [h0]
  | cons a as =>
    have h1 : ((a :: as).map fun _ => (Ty.cls .std [])).any (fun t => decide (Ns.std ∈ t.assoc)) = true := by
      simp [Ty.assoc]
    have e : ((if declared = true then [std] else []).filter fun f => (a :: as).any fun t => decide (f.ns ∈ t.assoc)) =
        ((if declared = true ∧ AnyStd (a :: as) then [std] else []).filter fun f =>
          ((a :: as).map fun _ => (Ty.cls .std [])).any fun t => decide (f.ns ∈ t.assoc)) := by
      cases declared with
      | false => simp
      | true =>
        by_cases h : AnyStd (a :: as)
        · have h' := (any_iff _).mpr h
          simp only [if_true, h, and_self]
          rw [List.filter_cons_of_pos (by rw [hs]; exact h'), List.filter_cons_of_pos (by rw [hs]; exact h1)]
          rfl
        · have h' : ((a :: as).any fun t => decide (Ns.std ∈ t.assoc)) = false := by
            rw [Bool.eq_false_iff]; exact fun hx => h ((any_iff _).mp hx)
          simp only [if_true, h, and_false, if_false]
          rw [List.filter_cons_of_neg (by rw [hs, h']; simp)]
          rfl
    rw [e, List.length_map]

/-- Which function the call at algorithm.hpp:96 means. -/
theorem callee_forEachN (declared : Bool) (itTy opTy : Ty) (restTys : List Ty) :
    (declared = true → restTys = [] → (Related .std itTy ∨ Related .std opTy) →
      callee stdxForEachN (if declared then [stdForEachN] else []) (itTy :: .builtin :: opTy :: restTys) = some stdForEachN) ∧
    ((declared = false ∨ restTys ≠ [] ∨ (¬ Related .std itTy ∧ ¬ Related .std opTy)) →
      callee stdxForEachN (if declared then [stdForEachN] else []) (itTy :: .builtin :: opTy :: restTys) = some stdxForEachN) := by
  classical
  rw [callee_eq stdxForEachN stdForEachN rfl]
  constructor
  · rintro rfl rfl h
    have : AnyStd [itTy, .builtin, opTy] := by
      rcases h with h | h
      exacts [⟨_, by simp, h⟩, ⟨_, by simp, h⟩]
    simp only [this, and_self, if_true]
    rfl
  · intro h
    by_cases hr : restTys = []
    · subst hr
      have : ¬ (declared = true ∧ AnyStd [itTy, .builtin, opTy]) := by
        rintro ⟨h1, t, ht, hs⟩
        rcases h with h | h | ⟨h2, h3⟩
        · rw [h] at h1; cases h1
        · exact h rfl
        · simp only [List.mem_cons, List.not_mem_nil, or_false] at ht
          rcases ht with rfl | rfl | rfl
          exacts [h2 hs, (nomatch hs), h3 hs]
      rw [if_neg this]
      rfl
    · obtain ⟨r, rs, rfl⟩ := List.exists_cons_of_ne_nil hr
      split <;> simp [callee, lookup, Fn.viable, Fn.better, stdxForEachN, stdForEachN, Ty.assoc]

/-- The library's own function is the one that is called. -/
def Own (declared : Bool) (c : Cat) (itTy opTy : Ty) (restTys : List Ty) : Prop :=
  c = .forward ∨ declared = false ∨ restTys ≠ [] ∨ (¬ Related .std itTy ∧ ¬ Related .std opTy)

/-- **C125, for_each_butlastn.** For types that have nothing to do with the standard library, for iterators that are not random
access iterators, or with more than one range: the calls and the result are those of C48. -/
theorem C125_for_each_butlastn_partial (declared : Bool) (c : Cat) (itTy opTy : Ty) (restTys : List Ty)
    (ho : Own declared c itTy opTy restTys) {op : List Nat → World α σ → World α σ} (hop : Keeps op) (w : World α σ)
    (first len : Nat) (n : Nat) (rest : List Nat) (hm : first + len ≤ w.1.length)
    (hin : Fits w.1.length (len - n) (first :: rest)) (hlen : len < 2 ^ 63) (hn : n < 2 ^ 63) :
    forEachButlastn declared c itTy opTy restTys op w first (first + len) n rest =
      .ok (.result (forEachSpec op (first :: rest) (len - n) w) (shift (first :: rest) (len - n))) := by
  have h := Algorithm.C48_for_each_butlastn_partial c hop w first len n rest hm hin hlen hn
  cases c with
  | forward =>
    replace h : Algorithm.butlastFwd op w first (first + len) n rest = _ := h
    unfold forEachButlastn
    simp only
    rw [h, Outcome.ok_bind]; rfl
  | random =>
    replace h : Algorithm.butlastRand op w first (first + len) n rest = _ := h
    have hc := (callee_forEachN declared itTy opTy restTys).2 (by
      rcases ho with h | h
      · cases h
      · exact h)
    unfold forEachButlastn butlastRand
    simp only [hc]
    unfold Algorithm.butlastRand at h
    simp only at h
    obtain ⟨k, e1, e2⟩ := Outcome.bind_eq_ok.mp h
    rw [e1, Outcome.ok_bind, if_neg (by decide), e2, Outcome.ok_bind]; rfl

theorem stdLoop_calls {op : List Nat → World α σ → World α σ} (hop : Keeps op) (first : Nat) (w : World α σ) :
    ∀ (n k : Nat), first + (k + n) ≤ w.1.length →
      stdLoop op n (forEachSpec op [first] k w) (first + k) = .ok (forEachSpec op [first] (k + n) w)
  | 0, k, _ => rfl
  | n + 1, k, h => by
    have hk : (forEachSpec op [first] k w).1.length = w.1.length := Algorithm.forEachSpec_length hop _ _ _
    have hd : Algorithm.derefs (forEachSpec op [first] k w).1 [first + k] = .ok () := by
      unfold Algorithm.derefs
      rw [if_pos (by simp [hk]; omega)]
    have hs : op [first + k] (forEachSpec op [first] k w) = forEachSpec op [first] (k + 1) w := by
      unfold forEachSpec
      rw [List.range_succ, List.foldl_append]
      rfl
    rw [stdLoop, Algorithm.forEachCall, hd]
    simp only [Outcome.ok_bind]
    show stdLoop op n (op [first + k] (forEachSpec op [first] k w)) (first + k + 1) = _
    rw [hs, show first + k + 1 = first + (k + 1) by omega, stdLoop_calls hop first w n (k + 1) (by omega)]
    congr 2; omega

/-- **C48 and C125 fail for iterators or operations of the standard library.** With random access iterators and one range, when
`std::for_each_n` is declared and the iterator's or the operation's type is related to namespace `std`, that function
is called: the calls are the same, but only the iterator is returned, not the function object and the iterator; and if there are
fewer than `n` elements, its precondition is violated. -/
theorem C48_adl_violated (itTy opTy : Ty) (h : Related .std itTy ∨ Related .std opTy) {op : List Nat → World α σ → World α σ}
    (hop : Keeps op) (w : World α σ) (first len n : Nat) (hm : first + len ≤ w.1.length) (hlen : len < 2 ^ 63) (hn : n < 2 ^ 63) :
    forEachButlastn true .random itTy opTy [] op w first (first + len) n [] =
      if n ≤ len then .ok (.iterator (forEachSpec op [first] (len - n) w) (first + (len - n))) else .ub := by
  have hc := (callee_forEachN true itTy opTy []).1 rfl rfl h
  unfold forEachButlastn butlastRand
  simp only [if_true] at hc ⊢
  rw [hc]
  simp only
  have e : Algorithm.toPtrdiff n = n := by unfold Algorithm.toPtrdiff; omega
  have es : Algorithm.subPtrdiff (((first + len : Nat) : Int) - (first : Int)) (n : Int) = .ok ((len : Int) - n) := by
    unfold Algorithm.subPtrdiff
    rw [if_pos (by omega)]
    exact congrArg Outcome.ok (by omega)
  rw [e, es, Outcome.ok_bind, if_pos (by rfl)]
  unfold stdForEachNCall
  by_cases hle : n ≤ len
  · rw [if_neg (by omega), if_pos hle]
    have et : ((len : Int) - n).toNat = len - n := by omega
    have hl := stdLoop_calls hop first w (len - n) 0 (by omega)
    rw [Nat.zero_add] at hl
    rw [et, show stdLoop op (len - n) w first = _ from hl, Outcome.ok_bind]
    rfl
  · rw [if_pos (by omega), if_neg hle]

/-- **C49 and C125 fail for iterators or operations of the standard library.** Then `initial_medial_final` does not compile for random
access iterators, whatever the range. -/
theorem C49_adl_violated (itTy mopTy : Ty) (h : Related .std itTy ∨ Related .std mopTy)
    (iop mop fop : Nat → World α σ → World α σ) (w : World α σ) (first last : Nat) :
    initialMedialFinal true .random itTy mopTy iop mop fop w first last = .ub := by
  have hc := (callee_forEachN true itTy mopTy []).1 rfl rfl h
  unfold initialMedialFinal
  have : resultHasElements true .random itTy mopTy = false := by
    unfold resultHasElements
    simp only [if_true] at hc ⊢
    rw [hc]
    rfl
  rw [this]; rfl

/-- **C125 and C49, initial_medial_final.** When the library's own function is called, the calls are those of C49. -/
theorem C125_initial_medial_final_partial (declared : Bool) (c : Cat) (itTy mopTy : Ty) (ho : Own declared c itTy mopTy [])
    {iop mop fop : Nat → World α σ → World α σ}
    (hi : ∀ p w, (iop p w).1.length = w.1.length) (hmo : ∀ p w, (mop p w).1.length = w.1.length)
    (w : World α σ) (first len : Nat) (hm : first + len ≤ w.1.length) (hlen : len < 2 ^ 63) :
    initialMedialFinal declared c itTy mopTy iop mop fop w first (first + len) = .ok (imfSpec iop mop fop first len w) := by
  have h := Algorithm.C49_initial_medial_final_partial c (fop := fop) hi hmo w first len hm hlen
  rw [← h]
  have hr : resultHasElements declared c itTy mopTy = true := by
    unfold resultHasElements
    cases c with
    | forward => rfl
    | random =>
      have hc := (callee_forEachN declared itTy mopTy []).2 (by
        rcases ho with h | h
        · cases h
        · exact h)
      simp only [hc]
      rfl
  have hf : ∀ (v : World α σ) (a b : Nat), forEachButlastn declared c itTy mopTy [] (unary mop) v a b 1 [] =
      (Algorithm.forEachButlastn c (unary mop) v a b 1 []).bind fun r => .ok (.result r.1 r.2) := by
    intro v a b
    cases c with
    | forward => rfl
    | random =>
      have hc := (callee_forEachN declared itTy mopTy []).2 (by
        rcases ho with h | h
        · cases h
        · exact h)
      unfold forEachButlastn butlastRand Algorithm.forEachButlastn Algorithm.butlastRand
      simp only [hc]
      cases Algorithm.subPtrdiff ((b : Int) - (a : Int)) (Algorithm.toPtrdiff 1) with
      | ub => rfl
      | panic => rfl
      | ok k => rfl
  unfold initialMedialFinal Algorithm.initialMedialFinal
  rw [if_pos hr]
  by_cases hne : first ≠ first + len
  · rw [if_pos hne, if_pos hne]
    cases Algorithm.derefs w.1 [first] with
    | ub => rfl
    | panic => rfl
    | ok u =>
      simp only [Outcome.ok_bind]
      rw [hf]
      unfold Algorithm.forEachButlast
      cases Algorithm.forEachButlastn c (unary mop) (iop first w) (first + 1) (first + len) 1 [] with
      | ub => rfl
      | panic => rfl
      | ok r =>
        obtain ⟨w', its⟩ := r
        show (match (Res.result w' its : Res α σ) with
          | .result w' (it :: _) => _
          | _ => _) = _
        cases its with
        | nil => rfl
        | cons it its => rfl
  · rw [if_neg hne, if_neg hne]

/-! ## Cartesian products -/

/-- Which calls of `make_tuple` and `forward_as_tuple` compile. -/
theorem makes_eq (declared : Bool) (args : List Ty) [Decidable (AnyStd args)] :
    makes declared args = if declared = true ∧ AnyStd args then .ub else .ok () := by
  unfold makes
  rw [callee_eq stdxMakeTuple stdMakeTuple rfl]
  by_cases h : declared = true ∧ AnyStd args
  · rw [if_pos h, if_pos h]
    obtain ⟨_, t, ht, _⟩ := h
    obtain ⟨a, as, rfl⟩ := List.exists_cons_of_ne_nil (List.ne_nil_of_mem ht)
    simp [callee, lookup, Fn.viable, Fn.better, stdxMakeTuple, stdMakeTuple, Ty.assoc]
  · rw [if_neg h, if_neg h]
    simp [callee, lookup, Fn.viable, stdxMakeTuple]

theorem related_tupleTy (tys : List Ty) : Related .std (tupleTy tys) ↔ AnyStd tys := by
  unfold tupleTy
  have key : ∀ (tys : List Ty) (t : Ty), Related .std (tys.foldl .inst t) ↔ Related .std t ∨ AnyStd tys := by
    intro tys
    induction tys with
    | nil => exact fun t => ⟨.inl, fun h => h.elim id fun ⟨_, h, _⟩ => by cases h⟩
    | cons a as ih =>
      intro t
      rw [List.foldl_cons, ih]
      constructor
      · rintro (h | ⟨x, hx, h⟩)
        · cases h with
          | template h => exact .inl h
          | argument h => exact .inr ⟨a, by simp, h⟩
        · exact .inr ⟨x, by simp [hx], h⟩
      · rintro (h | ⟨x, hx, h⟩)
        · exact .inl (.template h)
        · rcases List.mem_cons.mp hx with rfl | hx
          · exact .inl (.argument h)
          · exact .inr ⟨x, hx, h⟩
  rw [key]
  refine ⟨fun h => h.elim (fun h => ?_) id, .inr⟩
  cases h with
  | base h => simp at h

theorem mapO_ub {β γ : Type} {f : β → Outcome γ} {l : List β} (hne : ∃ x ∈ l, f x = .ub) (h : ∀ x ∈ l, f x = .ub ∨ ∃ y, f x = .ok y) :
    Tuple.mapO f l = .ub := by
  induction l with
  | nil => obtain ⟨_, h, _⟩ := hne; cases h
  | cons a as ih =>
    rw [Tuple.mapO]
    rcases h a (by simp) with e | ⟨y, e⟩
    · rw [e]; rfl
    · rw [e, Outcome.ok_bind, ih ?_ (fun x hx => h x (by simp [hx]))]
      · rfl
      · obtain ⟨x, hx, hu⟩ := hne
        rcases List.mem_cons.mp hx with rfl | hx
        · rw [e] at hu; cases hu
        · exact ⟨x, hx, hu⟩

theorem mem_product {ts : List (List α)} {l : List α} (h : l ∈ Tuple.product ts) : ∀ x ∈ l, ∃ u ∈ ts, x ∈ u := by
  induction ts generalizing l with
  | nil => rw [Tuple.product, List.mem_singleton] at h; subst h; intro x hx; cases hx
  | cons t ts ih =>
    rw [Tuple.product, List.mem_flatMap] at h
    obtain ⟨e, he, h⟩ := h
    obtain ⟨m, hm, rfl⟩ := List.mem_map.mp h
    intro x hx
    rcases List.mem_cons.mp hx with rfl | hx
    · exact ⟨t, by simp, he⟩
    · obtain ⟨u, hu, hxu⟩ := ih hm x hx
      exact ⟨u, by simp [hu], hxu⟩

/-- **C125 and C67, Cartesian products.** For elements whose types have nothing to do with the standard library, or when its functions are
not declared, the product is that of C67. -/
theorem C125_cartesian_partial (declared : Bool) (ty : α → Ty) (ts : List (List α))
    (h : declared = true → ∀ t ∈ ts, ∀ e ∈ t, ¬ Related .std (ty e)) :
    cartesian declared ty ts = .ok (Tuple.product ts) := by
  classical
  have hm : ∀ tys : List Ty, (declared = true → ¬ AnyStd tys) → makes declared tys = .ok () := by
    intro tys h
    rw [makes_eq, if_neg (fun hx => h hx.1 hx.2)]
  induction ts with
  | nil =>
    rw [cartesian, hm]
    · rfl
    · rintro _ ⟨t, ht, hr⟩
      rw [List.mem_singleton] at ht
      subst ht
      obtain ⟨_, h, _⟩ := (related_tupleTy []).mp hr
      cases h
  | cons t ts ih =>
    have ih := ih (fun hd u hu => h hd u (by simp [hu]))
    have hall : declared = true → ∀ l ∈ Tuple.product ts, ∀ x ∈ l, ¬ Related .std (ty x) := by
      intro hd l hl x hx
      obtain ⟨u, hu, hxu⟩ := mem_product hl x hx
      exact h hd u (by simp [hu]) x hxu
    have hp : ∀ e ∈ t, prepend declared ty e (Tuple.product ts) = .ok ((Tuple.product ts).map (e :: ·)) := by
      intro e he
      unfold prepend
      have h1 : makes declared [ty e] = .ok () := hm _ (by
        rintro hd ⟨x, hx, hr⟩
        rw [List.mem_singleton] at hx
        subst hx
        exact h hd t (by simp) e he hr)
      rw [Tuple.mapO_ok (g := (e :: ·)) (fun sub _ => by rw [h1, Outcome.ok_bind, Tuple.tupleCat_eq]; simp), Outcome.ok_bind, hm]
      · rfl
      · rintro hd ⟨x, hx, hr⟩
        simp only [List.map_map, List.mem_map, Function.comp] at hx
        obtain ⟨l, hl, rfl⟩ := hx
        obtain ⟨y, hy, hr⟩ := (related_tupleTy _).mp hr
        rw [List.map_cons] at hy
        rcases List.mem_cons.mp hy with rfl | hy
        · exact h hd t (by simp) e he hr
        · obtain ⟨z, hz, rfl⟩ := List.mem_map.mp hy
          exact hall hd l hl z hz hr
    rw [cartesian, ih, Outcome.ok_bind, Tuple.mapO_ok hp, Outcome.ok_bind, Tuple.tupleCat_eq, Tuple.product, List.flatMap]

/-- Each part of the product compiles or does not. -/
theorem prepend_cases (declared : Bool) (ty : α → Ty) (e : α) (c : List (List α)) :
    prepend declared ty e c = .ub ∨ ∃ r, prepend declared ty e c = .ok r ∧ r.length = c.length := by
  classical
  unfold prepend
  by_cases h : declared = true ∧ AnyStd [ty e]
  · cases c with
    | nil =>
      have : makes declared [] = .ok () := by
        rw [makes_eq, if_neg]; rintro ⟨_, _, h, _⟩; cases h
      right
      refine ⟨[], ?_, rfl⟩
      rw [Tuple.mapO, Outcome.ok_bind, List.map_nil, this]; rfl
    | cons a as => left; rw [Tuple.mapO, makes_eq, if_pos h]; rfl
  · rw [Tuple.mapO_ok (g := (e :: ·)) (fun sub _ => by rw [makes_eq, if_neg h, Outcome.ok_bind, Tuple.tupleCat_eq]; simp), Outcome.ok_bind]
    rw [makes_eq]
    split
    · exact .inl rfl
    · exact .inr ⟨_, rfl, by simp⟩

theorem cartesian_cases (declared : Bool) (ty : α → Ty) (ts : List (List α)) :
    cartesian declared ty ts = .ub ∨ ∃ r, cartesian declared ty ts = .ok r ∧ ((∀ t ∈ ts, t ≠ []) → r ≠ []) := by
  classical
  induction ts with
  | nil => right; exact ⟨[[]], C125_cartesian_partial declared ty [] (fun _ _ h => by cases h), fun _ => by simp⟩
  | cons t ts ih =>
    rcases ih with ih | ⟨c, ih, hc⟩
    · left; rw [cartesian, ih]; rfl
    · rw [cartesian, ih, Outcome.ok_bind]
      by_cases h : ∃ e ∈ t, prepend declared ty e c = .ub
      · left
        rw [mapO_ub h (fun e _ => (prepend_cases declared ty e c).imp id fun ⟨r, h, _⟩ => ⟨r, h⟩)]; rfl
      · right
        have hg : ∀ e ∈ t, ∃ r, prepend declared ty e c = .ok r ∧ r.length = c.length := fun e he =>
          (prepend_cases declared ty e c).resolve_left fun hx => h ⟨e, he, hx⟩
        choose! g hg using hg
        rw [Tuple.mapO_ok (g := g) (fun e he => (hg e he).1), Outcome.ok_bind, Tuple.tupleCat_eq]
        refine ⟨_, rfl, fun hne => ?_⟩
        obtain ⟨e, es, rfl⟩ := List.exists_cons_of_ne_nil (hne t (by simp))
        have hcne := hc (fun u hu => hne u (by simp [hu]))
        intro hx
        have : g e = [] := by
          rw [List.map_cons, List.flatten_cons] at hx
          exact (List.append_eq_nil_iff.mp hx).1
        have hl := (hg e (by simp)).2
        rw [this, List.length_nil] at hl
        exact hcne (List.eq_nil_of_length_eq_zero hl.symm)

/-- **C67 and C125 fail for elements of types of the standard library.** When `std::make_tuple` and `std::forward_as_tuple` are declared, an
element of a type related to namespace `std`, in a tuple after which no tuple is empty, makes the call ambiguous: the product does
not compile. -/
theorem C67_adl_violated (ty : α → Ty) (pre : List (List α)) (t : List α) (post : List (List α)) (e : α) (he : e ∈ t)
    (hs : Related .std (ty e)) (hp : ∀ u ∈ post, u ≠ []) :
    cartesian true ty (pre ++ t :: post) = .ub := by
  classical
  induction pre with
  | nil =>
    rw [List.nil_append, cartesian]
    rcases cartesian_cases true ty post with h | ⟨c, h, hc⟩
    · rw [h]; rfl
    · rw [h, Outcome.ok_bind]
      have hu : prepend true ty e c = .ub := by
        obtain ⟨a, as, rfl⟩ := List.exists_cons_of_ne_nil (hc hp)
        unfold prepend
        rw [Tuple.mapO, makes_eq, if_pos ⟨rfl, ty e, by simp, hs⟩]; rfl
      rw [mapO_ub ⟨e, he, hu⟩ (fun e _ => (prepend_cases true ty e c).imp id fun ⟨r, h, _⟩ => ⟨r, h⟩)]
      rfl
  | cons p pre ih => rw [List.cons_append, cartesian, ih]; rfl

/-! ## Cases -/

/-- `std::vector<int>::iterator` of libstdc++: `__gnu_cxx::__normal_iterator<int *, std::vector<int>>`. -/
def vectorIterator : Ty := .inst (.inst (.cls (.other 0) []) (.ptr .builtin)) (.inst (.cls .std []) .builtin)

/-- `std::function<void(int)>`. -/
def stdFunction : Ty := .inst (.cls .std []) .builtin

/-- A closure type of a function in the user's namespace. -/
def closure : Ty := .cls (.other 1) []

theorem closure_unrelated : ¬ Related .std closure := by
  intro h
  cases h with
  | base h => simp at h

theorem pointer_unrelated : ¬ Related .std (.ptr .builtin) := by
  intro h
  cases h with
  | pointer h => cases h

example : Related .std vectorIterator ∧ Related .std stdFunction :=
  ⟨.argument (.template (.cls _)), .template (.cls _)⟩

/-- An operation that counts its calls. -/
def counting : List Nat → World Nat Nat → World Nat Nat := fun _ w => (w.1, w.2 + 1)

example : Keeps counting := fun _ _ => rfl

/-- With pointers and a closure the result is the function object and the iterator, with the iterators of a vector the iterator. -/
example : forEachButlastn true .random (.ptr .builtin) closure [] counting ([5, 6, 7], 0) 0 3 1 [] = .ok (.result ([5, 6, 7], 2) [2]) ∧
    forEachButlastn true .random vectorIterator closure [] counting ([5, 6, 7], 0) 0 3 1 [] = .ok (.iterator ([5, 6, 7], 2) 2) ∧
    forEachButlastn true .random vectorIterator closure [vectorIterator] counting ([5, 6, 7], 0) 0 3 1 [0] =
      .ok (.result ([5, 6, 7], 2) [2, 2]) := by decide

example : Own true .random (.ptr .builtin) closure [] := .inr (.inr (.inr ⟨pointer_unrelated, closure_unrelated⟩))

/-- `cartesian_product(tuple{1, 2}, tuple{3})` and the same with a string (9). -/
example : cartesian true (fun x => if x = 9 then .cls .std [] else .builtin) [[1, 2], [3]] = .ok [[1, 3], [2, 3]] ∧
    cartesian true (fun x => if x = 9 then .cls .std [] else .builtin) [[1, 9], [3]] = .ub := by decide

end Verif.Adl
