import Verif.CxVector.Spec
import Verif.Buf.Lemmas

/-!
# Properties of `stdx::cx_vector`  (C26, C27)
-/

namespace Verif.CxVector

open Verif.Buf

theorem step_refines {α : Type} {N : Nat} {b : Buf α} {l : List α} (hN : N < szMod)
    (h : Rep N b l) (o : Op α) (hp : Pre N l o) :
    ∃ b' l' r, step N b o = .ok (b', r) ∧ Post N l o l' r ∧ Rep N b' l' := by
  cases o with
  | pushBack x =>
    obtain ⟨b', e, hr⟩ := h.append hN hp x
    exact ⟨b', _, .val x, by simp [step, e], ⟨rfl, rfl⟩, hr⟩
  | popBack =>
    have hl : l = l.dropLast ++ [l.getLast hp] := (List.dropLast_concat_getLast hp).symm
    rw [hl] at h
    obtain ⟨b', e, hr⟩ := h.popBack
    exact ⟨b', _, _, by simp [step, e], ⟨_, hl, rfl⟩, hr⟩
  | front =>
    have hpos : 0 < l.length := List.length_pos_iff.mpr hp
    refine ⟨b, l, .val l[0], by simp [step, front, h.get hpos], ⟨rfl, l[0], ?_, rfl⟩, h⟩
    simp [List.head?_eq_getElem?]
  | back =>
    have hpos : 0 < l.length := List.length_pos_iff.mpr hp
    have hg := h.get (i := l.length - 1) (by omega)
    refine ⟨b, l, .val l[l.length - 1], ?_, ⟨rfl, l[l.length - 1], ?_, rfl⟩, h⟩
    · simp [step, back, h.size, szDec_of_pos hpos, hg]
    · simp [List.getLast?_eq_getElem?]
  | index i =>
    have hp : i < l.length := hp
    exact ⟨b, l, .val l[i], by simp [step, index, h.get hp], ⟨rfl, l[i], by simp, rfl⟩, h⟩
  | assign i x =>
    obtain ⟨e, hr⟩ := h.set hp x
    refine ⟨_, _, .unit, by simp [step, assign, e], ⟨?_, rfl⟩, hr⟩
    have : i < l.length := hp
    simp [List.set_eq_take_append_cons_drop, this]
  | size => exact ⟨b, l, _, rfl, ⟨rfl, by rw [h.size]⟩, h⟩
  | empty =>
    refine ⟨b, l, _, rfl, ⟨rfl, ?_⟩, h⟩
    rw [h.size]; cases l <;> simp
  | full =>
    refine ⟨b, l, _, rfl, ⟨rfl, ?_⟩, h⟩
    rw [h.size]
    by_cases hh : l.length = N <;> simp [hh]
  | clear => exact ⟨_, [], _, rfl, ⟨rfl, rfl⟩, h.clear⟩
  | resize f =>
    obtain ⟨hc, hs, st, he⟩ := h
    have hlen : l.length + st.length = N := by rw [← hc, he]; simp
    obtain ⟨h1, h2⟩ := hp st hlen
    refine ⟨⟨(f b.storage).1, (f b.storage).2⟩, (f b.storage).1.take (f b.storage).2, .unit,
      ?_, ⟨⟨st, hlen, by rw [he]⟩, rfl⟩, ?_, ?_, ?_⟩
    · simp [step, resizeAndOverwrite, he, h1, hlen]
    · simp [he, h1]
    · simp [he, h1, h2]
    · exact ⟨_, (List.take_append_drop _ _).symm⟩
  | iterate => exact ⟨b, l, .list l, by simp [step, h.elems], ⟨rfl, rfl⟩, h⟩

theorem run_refines {α : Type} {N : Nat} (hN : N < szMod) (ops : List (Op α)) :
    ∀ {b : Buf α} {l : List α}, Rep N b l → Admissible N l ops →
      ∃ b' l' rs, run N b ops = .ok (b', rs) ∧ SpecRun N l ops l' rs ∧ Rep N b' l' := by
  induction ops with
  | nil => intro b l h _; exact ⟨b, l, [], rfl, ⟨rfl, rfl⟩, h⟩
  | cons o os ih =>
    intro b l h ha
    obtain ⟨b1, l1, r, e1, hpost, hr1⟩ := step_refines hN h o ha.1
    obtain ⟨b2, l2, rs, e2, hrun, hr2⟩ := ih hr1 (ha.2 l1 r hpost)
    exact ⟨b2, l2, r :: rs, by simp [run, e1, e2], ⟨l1, r, rs, hpost, hrun, rfl⟩, hr2⟩

/-- **C26.** For every capacity and every admissible history, starting from an empty vector
or from a list of initial elements, `cx_vector` has no undefined behaviour, answers as the
abstract list does, and ends with exactly the abstract list visible by iteration. -/
theorem C26_cx_vector_refines_list {α : Type} (N : Nat) (d : α) (hN : N < szMod) (ts : List α)
    (b : Buf α) (hb : ofList N d ts = some b) (ops : List (Op α)) (ha : Admissible N ts ops) :
    ∃ b' l' rs, run N b ops = .ok (b', rs) ∧ SpecRun N ts ops l' rs ∧
      elems b' = .ok l' ∧ b'.size = l'.length ∧ l'.length ≤ N := by
  obtain ⟨b', l', rs, e, hs, hr⟩ := run_refines hN ops (Rep.ofList hb) ha
  exact ⟨b', l', rs, e, hs, hr.elems, hr.size, hr.le⟩

/-- The default constructor is the case of no initial elements. -/
theorem C26_default_ctor {α : Type} (N : Nat) (d : α) : ofList N d [] = some (init N d) := by
  simp [ofList, init]

example : Admissible 3 [7] ([.pushBack 1, .pushBack 2, .full, .popBack, .assign 0 5,
    .resize (fun st => (st.set 2 9, 3)), .index 2, .iterate, .clear, .empty] : List (Op Nat)) := by
  simp [Admissible, Pre, Post]
  intro l' stale hlen
  grind

example : (ofList 3 0 [7]).isSome ∧
    (do let b ← (match ofList 3 0 [7] with | some b => Outcome.ok b | none => Outcome.ub)
        run 3 b ([.pushBack 1, .pushBack 2, .popBack, .iterate] : List (Op Nat))) =
      .ok (⟨[7, 1, 2], 2⟩, [.val 1, .val 2, .val 2, .list [7, 1]]) := by decide

/-- **C26 (undefined cases).** On a vector that holds `l`, a push on a full vector and
`pop_back`/`back` on an empty one are undefined, as is any access at or beyond the capacity;
`front`, `operator[]` and element assignment between the size and the capacity silently touch
a stale element instead. -/
theorem C26_cx_vector_ub_iff {α : Type} (N : Nat) (hN : N < szMod) (b : Buf α) (l : List α)
    (h : Rep N b l) (o : Op α) :
    step N b o = .ub ↔
      match o with
      | .pushBack _ => l.length = N
      | .popBack => l = []
      | .back => l = []
      | .front => N = 0
      | .index i => N ≤ i
      | .assign i _ => N ≤ i
      | .resize f => (f b.storage).1.length ≠ N
      | _ => False := by
  have hle := h.le
  have hget : ∀ i, arrGet b.storage i = .ub ↔ N ≤ i := by
    intro i
    by_cases hi : N ≤ i
    · simp [h.get_ub hi, hi]
    · have : i < b.storage.length := by rw [h.cap]; omega
      simp [arrGet, this, hi]
  have hset : ∀ i x, arrSet b.storage i x = .ub ↔ N ≤ i := by
    intro i x
    by_cases hi : N ≤ i
    · simp [h.set_ub hi, hi]
    · have : i < b.storage.length := by rw [h.cap]; omega
      simp [arrSet, this, hi]
  cases o with
  | pushBack x =>
    by_cases hl : l.length = N
    · simp [step, h.append_ub hl, hl]
    · obtain ⟨b', e, _⟩ := h.append hN (by omega) x
      simp [step, e, hl]
  | popBack =>
    by_cases hl : l = []
    · subst hl; simp [step, h.popBack_ub hN]
    · obtain ⟨b', l', r, e, _⟩ := step_refines hN h .popBack hl
      simp [e, hl]
  | back =>
    by_cases hl : l = []
    · subst hl
      have h0 : b.size = 0 := h.size
      have h2 : szDec 0 = 18446744073709551615 := rfl
      rw [szMod_lit] at hN
      simp only [step, back, h0, h2, iff_true]
      rw [h.get_ub (by omega)]; rfl
    · obtain ⟨b', l', r, e, _⟩ := step_refines hN h .back hl
      simp [e, hl]
  | front =>
    have := hget 0
    simp only [step, front]
    cases e : arrGet b.storage 0 <;> simp_all
  | index i =>
    have := hget i
    simp only [step, index]
    cases e : arrGet b.storage i <;> simp_all
  | assign i x =>
    have := hset i x
    simp only [step, assign]
    cases e : arrSet b.storage i x <;> simp_all
  | resize f =>
    simp only [step, resizeAndOverwrite, h.cap]
    by_cases hh : (f b.storage).1.length = N <;> simp [hh]
  | size => simp [step]
  | empty => simp [step]
  | full => simp [step]
  | clear => simp [step]
  | iterate => simp [step, h.elems]

example : step 2 (⟨[1, 2], 2⟩ : Buf Nat) (.pushBack 3) = .ub ∧
    step 2 (⟨[1, 2], 0⟩ : Buf Nat) .front = .ok (⟨[1, 2], 0⟩, .val 1) := by decide

theorem eqLoop_aux {α : Type} (ne : α → α → Bool) {s t : List α} (l1 : List α) :
    ∀ (l2 st1 st2 p1 p2 : List α), p1.length = p2.length → l1.length = l2.length →
      s = p1 ++ (l1 ++ st1) → t = p2 ++ (l2 ++ st2) →
      eqLoop ne s t p1.length l1.length = .ok ((l1.zip l2).all fun x => !ne x.1 x.2) := by
  induction l1 with
  | nil => intro l2 st1 st2 p1 p2 _ h; simp at h; simp [eqLoop]
  | cons x xs ih =>
    intro l2 st1 st2 p1 p2 hp hl hs ht
    cases l2 with
    | nil => simp at hl
    | cons y ys =>
      have g1 : arrGet s p1.length = .ok x := by rw [arrGet_ok, hs]; simp
      have g2 : arrGet t p1.length = .ok y := by rw [arrGet_ok, ht, hp]; simp
      have := ih ys st1 st2 (p1 ++ [x]) (p2 ++ [y]) (by simp [hp]) (by simpa using hl)
        (by simp [hs]) (by simp [ht])
      simp only [List.length_append, List.length_cons, List.length_nil, Nat.zero_add] at this
      simp only [List.length_cons, eqLoop, g1, g2, Outcome.ok_bind, this, List.zip_cons_cons, List.all_cons]
      cases ne x y <;> simp

/-- **C27, any `!=`.** For any two vectors of capacity `N` that hold `l` and `m` (with any stale elements
above) and any `!=` of the element type, `v == w` is never undefined and is true exactly when the sizes
agree and no two elements at the same index are unequal. -/
theorem C27_cx_vector_eq_any {α : Type} (ne : α → α → Bool) (N : Nat) (v w : Buf α) (l m : List α)
    (hv : Rep N v l) (hw : Rep N w m) : ∃ r, eq ne v w = .ok r ∧
      (r = true ↔ l.length = m.length ∧ ∀ i (h1 : i < l.length) (h2 : i < m.length), ne l[i] m[i] = false) := by
  unfold eq
  rw [hv.size, hw.size]
  by_cases hl : l.length = m.length
  · obtain ⟨_, _, s1, e1⟩ := hv
    obtain ⟨_, _, s2, e2⟩ := hw
    have := eqLoop_aux ne l m s1 s2 [] [] rfl hl (by simpa using e1) (by simpa using e2)
    rw [if_neg (by simpa using hl)]
    refine ⟨_, this, ?_⟩
    simp only [hl, true_and, List.all_eq_true]
    constructor
    · intro h i h1 h2
      have := h (l[i], m[i]) (by
        rw [List.mem_iff_getElem]
        exact ⟨i, by simp [h2, hl], by simp⟩)
      simpa using this
    · intro h x hx
      obtain ⟨i, hi, rfl⟩ := List.mem_iff_getElem.mp hx
      simp only [List.length_zip] at hi
      simp [h i (by omega) (by omega)]
  · rw [if_pos (by simpa using hl)]
    exact ⟨false, rfl, by simp [hl]⟩

/-- **C27.** For any two vectors of capacity `N` that hold `l` and `m` (with any stale
elements above), and an element type whose `!=` is inequality, `v == w` is never undefined and is true
exactly when `l = m`. -/
theorem C27_cx_vector_eq {α : Type} [DecidableEq α] (N : Nat) (v w : Buf α) (l m : List α)
    (hv : Rep N v l) (hw : Rep N w m) : eq (fun x y => decide (x ≠ y)) v w = .ok (decide (l = m)) := by
  obtain ⟨r, e, h⟩ := C27_cx_vector_eq_any (fun x y => decide (x ≠ y)) N v w l m hv hw
  rw [e]
  congr 1
  rw [Bool.eq_iff_iff, h, decide_eq_true_eq]
  constructor
  · rintro ⟨h1, h2⟩
    exact List.ext_getElem h1 fun i hi hj => by simpa using h2 i hi hj
  · rintro rfl
    exact ⟨rfl, by simp⟩

/-- Floating-point numbers are like this: an element that differs from itself makes a vector unequal to
itself. -/
example : eq (fun x y : Nat => x != y || x == 9) ⟨[1, 9], 2⟩ ⟨[1, 9], 2⟩ = .ok false := by decide

/-- **C27 (over histories).** Two vectors built by any admissible histories compare equal
exactly when their abstract contents are equal; leftovers of popped or cleared elements do
not matter. -/
theorem C27_cx_vector_eq_histories {α : Type} [DecidableEq α] (N : Nat) (d : α) (hN : N < szMod)
    (ops1 ops2 : List (Op α)) (h1 : Admissible N [] ops1) (h2 : Admissible N [] ops2) :
    ∃ v w l m rs1 rs2, run N (init N d) ops1 = .ok (v, rs1) ∧ SpecRun N [] ops1 l rs1 ∧
      run N (init N d) ops2 = .ok (w, rs2) ∧ SpecRun N [] ops2 m rs2 ∧
      eq (fun x y => decide (x ≠ y)) v w = .ok (decide (l = m)) := by
  obtain ⟨v, l, rs1, e1, s1, r1⟩ := run_refines hN ops1 (Rep.init N d) h1
  obtain ⟨w, m, rs2, e2, s2, r2⟩ := run_refines hN ops2 (Rep.init N d) h2
  exact ⟨v, w, l, m, rs1, rs2, e1, s1, e2, s2, C27_cx_vector_eq N v w l m r1 r2⟩

example : Rep 3 (⟨[1, 2, 8], 2⟩ : Buf Nat) [1, 2] ∧ Rep 3 (⟨[1, 2, 9], 2⟩ : Buf Nat) [1, 2] :=
  ⟨⟨rfl, rfl, [8], rfl⟩, ⟨rfl, rfl, [9], rfl⟩⟩

example : Admissible 3 [] ([.pushBack 1, .pushBack 2, .popBack] : List (Op Nat)) := by
  simp [Admissible, Pre, Post]

end Verif.CxVector
