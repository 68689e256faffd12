import Verif.Iter.Object
import Verif.Iter.Props

/-! # References from `counting_iterator`: the property theorems (C118) -/

namespace Verif.Iter

/-! ## What a user expects -/

/-- How far a history moves the iterator `a`. -/
def Spec.moved (a : Nat) : List Op → Int
  | [] => 0
  | .inc b :: os => (if b = a then 1 else 0) + Spec.moved a os
  | .dec b :: os => (if b = a then -1 else 0) + Spec.moved a os
  | .add b d :: os => (if b = a then d else 0) + Spec.moved a os
  | _ :: os => Spec.moved a os

/-- An operation that neither ends the iterator `a` nor writes through it. -/
def Spec.Quiet (a : Nat) : Op → Prop
  | .destroy b => b ≠ a
  | .write b _ => b ≠ a
  | _ => True

/-! ## Lemmas -/

theorem Store.obj_ok {s : Store} {a : Nat} {v : Int} : s.obj a = .ok v ↔ s[a]? = some (some v) := by
  unfold Store.obj
  split
  · rename_i w h; rw [h]; simp
  · rename_i h; simp only [reduceCtorEq, false_iff]; intro e; exact h v e

theorem Store.obj_set_self {s : Store} {a : Nat} {v : Int} (h : s.obj a = .ok v) (w : Option Int) :
    (s.set a w)[a]? = some w := by
  have := (List.getElem?_eq_some_iff.mp (Store.obj_ok.mp h)).1
  rw [List.getElem?_set_self this]

theorem Store.obj_set_ne {s : Store} {a b : Nat} (hab : b ≠ a) (w : Option Int) : Store.obj (s.set b w) a = s.obj a := by
  unfold Store.obj
  rw [List.getElem?_set_ne hab]

theorem Store.obj_append {s : Store} {a : Nat} {v : Int} (h : s.obj a = .ok v) (l : List (Option Int)) : (s ++ l).obj a = .ok v := by
  rw [Store.obj_ok] at *
  have := (List.getElem?_eq_some_iff.mp h).1
  rw [List.getElem?_append_left this, h]

/-- What is destroyed does not come back. -/
theorem Store.dead_run (t : ITy) (a : Nat) (os : List Op) : ∀ (s s' : Store), s[a]? = some none → s.run t os = .ok s' → s'[a]? = some none := by
  have hset : ∀ (s : Store) (b : Nat) (w : Option Int) (v : Int), s[a]? = some none → s.obj b = .ok v → (s.set b w)[a]? = some none := by
    intro s b w v h hb
    have : b ≠ a := by
      rintro rfl; rw [Store.obj_ok, h] at hb; simp at hb
    rw [List.getElem?_set_ne this, h]
  have happ : ∀ (s : Store) (l : List (Option Int)), s[a]? = some none → (s ++ l)[a]? = some none := by
    intro s l h
    rw [List.getElem?_append_left (List.getElem?_eq_some_iff.mp h).1, h]
  induction os with
  | nil => intro s s' h hr; simp only [Store.run, Outcome.ok.injEq] at hr; rw [← hr]; exact h
  | cons o os ih =>
    intro s s' h hr
    simp only [Store.run, Outcome.bind_eq_ok] at hr
    obtain ⟨s1, h1, hr⟩ := hr
    refine ih s1 s' ?_ hr
    cases o with
    | new v => simp only [Store.step, Store.new, Outcome.ok.injEq] at h1; rw [← h1]; exact happ s _ h
    | copy b =>
      simp only [Store.step, Store.copy, Store.new, Outcome.bind_eq_ok, Outcome.pure_eq_ok, Outcome.ok.injEq] at h1
      obtain ⟨p, ⟨v, hv, rfl⟩, rfl⟩ := h1
      exact happ s _ h
    | destroy b =>
      simp only [Store.step, Store.destroy, Outcome.bind_eq_ok, Outcome.pure_eq_ok, Outcome.ok.injEq] at h1
      obtain ⟨v, hv, rfl⟩ := h1
      exact hset s b _ v h hv
    | inc b | dec b | add b d =>
      simp only [Store.step, Store.inc, Store.dec, Store.add, Outcome.bind_eq_ok, Outcome.pure_eq_ok, Outcome.ok.injEq] at h1
      obtain ⟨v, hv, w, _, rfl⟩ := h1
      exact hset s b _ v h hv
    | write b x =>
      simp only [Store.step, Store.deref, Store.write, Outcome.bind_eq_ok, Outcome.pure_eq_ok, Outcome.ok.injEq] at h1
      obtain ⟨r, ⟨v, hv, rfl⟩, v', hv', rfl⟩ := h1
      exact hset s b _ v h hv

theorem Store.obj_dead {s : Store} {a : Nat} (h : s[a]? = some none) : s.obj a = .ub := by
  unfold Store.obj; rw [h]

/-! ## The theorems -/

/-- **C118, values.** Whatever is done with other iterators, dereferencing an iterator at once gives the number it has counted to, as long as the numbers on the way
are in the range of the type. -/
theorem C118_value (t : ITy) (ht : t.Sane) (os : List Op) (s s' : Store) (a : Nat) (v : Int) (hv : s.obj a = .ok v)
    (hq : ∀ o ∈ os, Spec.Quiet a o) (hr : ∀ k, t.Rep (v + Spec.moved a (os.take k))) (hrun : s.run t os = .ok s') :
    (s'.deref a >>= s'.read) = .ok (v + Spec.moved a os) := by
  suffices h : s'.obj a = .ok (v + Spec.moved a os) by
    simp only [Store.deref, Store.read, h, Outcome.ok_bind, Outcome.pure_eq_ok]
  induction os generalizing s v with
  | nil => simp only [Store.run, Outcome.ok.injEq] at hrun; rw [← hrun, hv]; simp [Spec.moved]
  | cons o os ih =>
    simp only [Store.run, Outcome.bind_eq_ok] at hrun
    obtain ⟨s1, h1, hrun⟩ := hrun
    have hq' : ∀ o ∈ os, Spec.Quiet a o := fun o h => hq o (List.mem_cons_of_mem _ h)
    have ho := hq o List.mem_cons_self
    have h0 : ∀ d : Int, (∀ l, Spec.moved a (o :: l) = d + Spec.moved a l) → s1.obj a = .ok (v + d) →
        s'.obj a = .ok (v + Spec.moved a (o :: os)) := by
      intro d hd hs
      have := ih s1 (v + d) hs hq' (fun k => by have := hr (k + 1); rw [List.take_succ_cons, hd] at this; rwa [Int.add_assoc]) hrun
      rw [this, hd, Int.add_assoc]
    have hr1 := hr 1
    cases o with
    | new x =>
      simp only [Store.step, Store.new, Outcome.ok.injEq] at h1
      exact h0 0 (by simp [Spec.moved]) (by rw [← h1, Int.add_zero]; exact Store.obj_append hv _)
    | copy b =>
      simp only [Store.step, Store.copy, Store.new, Outcome.bind_eq_ok, Outcome.pure_eq_ok, Outcome.ok.injEq] at h1
      obtain ⟨p, ⟨x, hx, rfl⟩, rfl⟩ := h1
      exact h0 0 (by simp [Spec.moved]) (by rw [Int.add_zero]; exact Store.obj_append hv _)
    | destroy b =>
      simp only [Store.step, Store.destroy, Outcome.bind_eq_ok, Outcome.pure_eq_ok, Outcome.ok.injEq] at h1
      obtain ⟨x, hx, rfl⟩ := h1
      exact h0 0 (by simp [Spec.moved]) (by rw [Int.add_zero, Store.obj_set_ne ho]; exact hv)
    | write b y =>
      simp only [Store.step, Store.deref, Store.write, Outcome.bind_eq_ok, Outcome.pure_eq_ok, Outcome.ok.injEq] at h1
      obtain ⟨r, ⟨x, hx, rfl⟩, x', hx', rfl⟩ := h1
      exact h0 0 (by simp [Spec.moved]) (by rw [Int.add_zero, Store.obj_set_ne ho]; exact hv)
    | inc b =>
      simp only [Store.step, Store.inc, Outcome.bind_eq_ok, Outcome.pure_eq_ok, Outcome.ok.injEq] at h1
      obtain ⟨x, hx, w, hw, rfl⟩ := h1
      by_cases hb : b = a
      · subst hb
        obtain rfl : v = x := by rw [hv] at hx; injection hx
        simp only [List.take_succ_cons, List.take_zero, Spec.moved, ite_true, Int.add_zero] at hr1
        rw [(C81_steps t ht v 0).1 hr1] at hw
        injection hw with hw
        exact h0 1 (by simp [Spec.moved]) (by rw [Store.obj_ok, Store.obj_set_self hv, hw])
      · exact h0 0 (by simp [Spec.moved, hb]) (by rw [Int.add_zero, Store.obj_set_ne hb]; exact hv)
    | dec b =>
      simp only [Store.step, Store.dec, Outcome.bind_eq_ok, Outcome.pure_eq_ok, Outcome.ok.injEq] at h1
      obtain ⟨x, hx, w, hw, rfl⟩ := h1
      by_cases hb : b = a
      · subst hb
        obtain rfl : v = x := by rw [hv] at hx; injection hx
        simp only [List.take_succ_cons, List.take_zero, Spec.moved, ite_true, Int.add_zero] at hr1
        rw [(C81_steps t ht v 0).2.1 hr1] at hw
        injection hw with hw
        exact h0 (-1) (by simp [Spec.moved]) (by rw [Store.obj_ok, Store.obj_set_self hv, ← hw]; rfl)
      · exact h0 0 (by simp [Spec.moved, hb]) (by rw [Int.add_zero, Store.obj_set_ne hb]; exact hv)
    | add b d =>
      simp only [Store.step, Store.add, Outcome.bind_eq_ok, Outcome.pure_eq_ok, Outcome.ok.injEq] at h1
      obtain ⟨x, hx, w, hw, rfl⟩ := h1
      by_cases hb : b = a
      · subst hb
        obtain rfl : v = x := by rw [hv] at hx; injection hx
        simp only [List.take_succ_cons, List.take_zero, Spec.moved, ite_true, Int.add_zero] at hr1
        have h2 : addAssign t v d = .ok (v + d) := (C81_steps t ht v d).2.2.1 hr1
        rw [h2] at hw
        injection hw with hw
        exact h0 d (by simp [Spec.moved]) (by rw [Store.obj_ok, Store.obj_set_self hv, hw])
      · exact h0 0 (by simp [Spec.moved, hb]) (by rw [Int.add_zero, Store.obj_set_ne hb]; exact hv)

/-- **C118, temporaries.** The value of `*(it + d)` is that of the iterator moved by `d`; other iterators stay as they are. -/
theorem C118_plus_value (t : ITy) (ht : t.Sane) (s : Store) (a : Nat) (v d : Int) (hv : s.obj a = .ok v) (hd : t.Rep (v + d)) :
    ∃ s', s.plusValue t a d = .ok (s', v + d) ∧ ∀ b w, s.obj b = .ok w → s'.obj b = .ok w := by
  have hn : (s ++ [some v]).obj s.length = .ok v := by rw [Store.obj_ok]; simp
  have h2 : addAssign t v d = .ok (v + d) := (C81_steps t ht v d).2.2.1 hd
  have h3 : Store.obj ((s ++ [some v]).set s.length (some (v + d))) s.length = .ok (v + d) := by
    rw [Store.obj_ok, Store.obj_set_self hn]
  refine ⟨((s ++ [some v]).set s.length (some (v + d))).set s.length none, ?_, ?_⟩
  · simp only [Store.plusValue, Store.copy, Store.new, Store.add, Store.deref, Store.read, Store.destroy, hv, hn, h2, h3,
      Outcome.ok_bind, Outcome.pure_eq_ok]
  · intro b w hb
    have hlt := (List.getElem?_eq_some_iff.mp (Store.obj_ok.mp hb)).1
    rw [Store.obj_set_ne (by omega), Store.obj_set_ne (by omega)]
    exact Store.obj_append hb _

/-- **C118 fails: a reference moves with its iterator.** A reference taken before a history that moves the iterator by `m` reads the number
`v + m` after it, not the number `v` that it referred to. -/
theorem C118_reference_moves_violated (t : ITy) (ht : t.Sane) (os : List Op) (s s' : Store) (a : Nat) (v : Int) (hv : s.obj a = .ok v)
    (hq : ∀ o ∈ os, Spec.Quiet a o) (hr : ∀ k, t.Rep (v + Spec.moved a (os.take k))) (hrun : s.run t os = .ok s') :
    ∃ r, s.deref a = .ok r ∧ s.read r = .ok v ∧ s'.read r = .ok (v + Spec.moved a os) := by
  refine ⟨a, by simp [Store.deref, hv], hv, ?_⟩
  have := C118_value t ht os s s' a v hv hq hr hrun
  simp only [Store.deref, Store.read, Outcome.bind_eq_ok, Outcome.pure_eq_ok, Outcome.ok.injEq] at this ⊢
  obtain ⟨r, ⟨w, _, rfl⟩, h⟩ := this
  exact h

/-- **C118 fails: a reference ends with its iterator.** After the iterator is destroyed, no history makes it defined to read through a reference that it gave. -/
theorem C118_reference_dangles_violated (t : ITy) (s s1 s' : Store) (a r : Nat) (os : List Op) (hr : s.deref a = .ok r)
    (hd : s.destroy a = .ok s1) (hrun : s1.run t os = .ok s') : s'.read r = .ub := by
  simp only [Store.deref, Store.destroy, Outcome.bind_eq_ok, Outcome.pure_eq_ok, Outcome.ok.injEq] at hr hd
  obtain ⟨v, hv, rfl⟩ := hr
  obtain ⟨w, _, rfl⟩ := hd
  exact Store.obj_dead (Store.dead_run t a os _ _ (Store.obj_set_self hv none) hrun)

/-- **C118 fails: equal iterators refer to different objects.** Writing through one is not seen through the other. -/
theorem C118_equal_violated (s : Store) (a b : Nat) (hab : a ≠ b) (v w : Int) (ha : s.obj a = .ok v) (hb : s.obj b = .ok v) :
    ∃ ra rb s', eq v v = true ∧ s.deref a = .ok ra ∧ s.deref b = .ok rb ∧ ra ≠ rb ∧
      s.write ra w = .ok s' ∧ s'.read ra = .ok w ∧ s'.read rb = .ok v := by
  refine ⟨a, b, s.set a (some w), by simp [eq], by simp [Store.deref, ha], by simp [Store.deref, hb], hab, by simp [Store.write, ha], ?_, ?_⟩
  · exact Store.obj_ok.mpr (Store.obj_set_self ha _)
  · exact (Store.obj_set_ne hab _).trans hb

/-- **C118 fails: writing an element moves the iterator.** After `*it = w`, the iterator is one that has counted to `w`, and counts on from there. -/
theorem C118_write_violated (t : ITy) (ht : t.Sane) (s : Store) (a : Nat) (v w : Int) (ha : s.obj a = .ok v) (hw : t.Rep (w + 1)) :
    ∃ s' s'', s.run t [.write a w] = .ok s' ∧ s'.obj a = .ok w ∧ s'.inc t a = .ok s'' ∧ (s''.deref a >>= s''.read) = .ok (w + 1) := by
  have h1 : Store.obj (s.set a (some w)) a = .ok w := Store.obj_ok.mpr (Store.obj_set_self ha _)
  have h2 : Store.obj ((s.set a (some w)).set a (some (w + 1))) a = .ok (w + 1) := Store.obj_ok.mpr (Store.obj_set_self h1 _)
  refine ⟨_, (s.set a (some w)).set a (some (w + 1)), by simp [Store.run, Store.step, Store.deref, Store.write, ha], h1, ?_, ?_⟩
  · simp only [Store.inc, h1, (C81_steps t ht w 0).1 hw, Outcome.ok_bind, Outcome.pure_eq_ok]
  · simp only [Store.deref, Store.read, h2, Outcome.ok_bind, Outcome.pure_eq_ok]

/-- **C118 fails: reverse iterators cannot be dereferenced.** `std::reverse_iterator` returns the reference that a local copy gave; to read it is undefined,
at once and after every history, though the iterator one before exists and has the number `v - 1`. -/
theorem C118_reverse_undefined (t : ITy) (ht : t.Sane) (s : Store) (a : Nat) (v : Int) (ha : s.obj a = .ok v) (hv : t.Rep (v - 1)) :
    ∃ s1 r, s.reverseDeref t a = .ok (s1, r) ∧ ∀ os s', s1.run t os = .ok s' → s'.read r = .ub := by
  have hn : (s ++ [some v]).obj s.length = .ok v := by rw [Store.obj_ok]; simp
  have h3 : Store.obj ((s ++ [some v]).set s.length (some (v - 1))) s.length = .ok (v - 1) := by
    rw [Store.obj_ok, Store.obj_set_self hn]
  refine ⟨((s ++ [some v]).set s.length (some (v - 1))).set s.length none, s.length, ?_, ?_⟩
  · simp only [Store.reverseDeref, Store.copy, Store.new, Store.dec, Store.deref, Store.destroy, ha, hn, (C81_steps t ht v 0).2.1 hv, h3,
      Outcome.ok_bind, Outcome.pure_eq_ok]
  · exact fun os s' h => Store.obj_dead (Store.dead_run t _ os _ _ (Store.obj_set_self h3 none) h)

/-- **C118 fails: references to what a temporary iterator counts to.** The reference `*(it + d)` is dangling at the end of the full expression. -/
theorem C118_plus_reference_undefined (t : ITy) (ht : t.Sane) (s : Store) (a : Nat) (v d : Int) (ha : s.obj a = .ok v) (hv : t.Rep (v + d)) :
    ∃ s1 r, s.plusDeref t a d = .ok (s1, r) ∧ ∀ os s', s1.run t os = .ok s' → s'.read r = .ub := by
  have hn : (s ++ [some v]).obj s.length = .ok v := by rw [Store.obj_ok]; simp
  have h2 : addAssign t v d = .ok (v + d) := (C81_steps t ht v d).2.2.1 hv
  have h3 : Store.obj ((s ++ [some v]).set s.length (some (v + d))) s.length = .ok (v + d) := by
    rw [Store.obj_ok, Store.obj_set_self hn]
  refine ⟨((s ++ [some v]).set s.length (some (v + d))).set s.length none, s.length, ?_, ?_⟩
  · simp only [Store.plusDeref, Store.copy, Store.new, Store.add, Store.deref, Store.destroy, ha, hn, h2, h3,
      Outcome.ok_bind, Outcome.pure_eq_ok]
  · exact fun os s' h => Store.obj_dead (Store.dead_run t _ os _ _ (Store.obj_set_self h3 none) h)

/-! ## Cases that meet the hypotheses -/

/-- Two iterators, one moved three on and one back, the other written to and destroyed. -/
example : ∃ s', Store.run ⟨true, 32⟩ [some 17, some 5] [.inc 0, .write 1 9, .add 0 2, .copy 0, .destroy 1, .dec 0] = .ok s' ∧
    (s'.deref 0 >>= s'.read) = .ok 19 := by
  refine ⟨[some 19, none, some 20], by decide, ?_⟩
  exact C118_value ⟨true, 32⟩ (by simp [ITy.Sane]) [.inc 0, .write 1 9, .add 0 2, .copy 0, .destroy 1, .dec 0] [some 17, some 5] _ 0 17 rfl
    (by simp [Spec.Quiet]) (fun k => by
      match k with
      | 0 | 1 | 2 | 3 | 4 | 5 | k + 6 => simp [Spec.moved]; decide) (by decide)

example : ∃ r, Store.deref [some 17] 0 = .ok r ∧ Store.read [some 17] r = .ok 17 ∧ Store.read [some 18] r = .ok 18 :=
  C118_reference_moves_violated ⟨true, 32⟩ (by simp [ITy.Sane]) [.inc 0] [some 17] [some 18] 0 17 rfl (by simp [Spec.Quiet])
    (fun k => by
      match k with
      | 0 | k + 1 => simp [Spec.moved]; decide) (by decide)

example : Store.read [none, some 17] 0 = .ub :=
  C118_reference_dangles_violated ⟨true, 32⟩ [some 17] [none] _ 0 0 [.new 17] rfl rfl rfl

example : ∃ s1 r, Store.reverseDeref ⟨true, 32⟩ [some 17] 0 = .ok (s1, r) ∧ s1.read r = .ub :=
  have ⟨s1, r, h, hu⟩ := C118_reverse_undefined ⟨true, 32⟩ (by simp [ITy.Sane]) [some 17] 0 17 rfl (by decide)
  ⟨s1, r, h, hu [] s1 rfl⟩

example : ∃ s' s'', Store.run ⟨true, 32⟩ [some 17] [.write 0 40] = .ok s' ∧ s'.obj 0 = .ok 40 ∧ s'.inc ⟨true, 32⟩ 0 = .ok s'' ∧
    (s''.deref 0 >>= s''.read) = .ok 41 :=
  C118_write_violated ⟨true, 32⟩ (by simp [ITy.Sane]) [some 17] 0 17 40 rfl (by decide)

example : ∃ ra rb s', eq 17 17 = true ∧ Store.deref [some 17, some 17] 0 = .ok ra ∧ Store.deref [some 17, some 17] 1 = .ok rb ∧ ra ≠ rb ∧
    Store.write [some 17, some 17] ra 3 = .ok s' ∧ s'.read ra = .ok 3 ∧ s'.read rb = .ok 17 :=
  C118_equal_violated [some 17, some 17] 0 1 (by simp) 17 3 rfl rfl

example : ∃ s', Store.plusValue ⟨true, 32⟩ [some 17] 0 4 = .ok (s', 21) ∧ ∀ b w, Store.obj [some 17] b = .ok w → s'.obj b = .ok w :=
  C118_plus_value ⟨true, 32⟩ (by simp [ITy.Sane]) [some 17] 0 17 4 rfl (by decide)

example : ∃ s1 r, Store.plusDeref ⟨true, 32⟩ [some 17] 0 4 = .ok (s1, r) ∧ s1.read r = .ub :=
  have ⟨s1, r, h, hu⟩ := C118_plus_reference_undefined ⟨true, 32⟩ (by simp [ITy.Sane]) [some 17] 0 17 4 rfl (by decide)
  ⟨s1, r, h, hu [] s1 rfl⟩

end Verif.Iter
