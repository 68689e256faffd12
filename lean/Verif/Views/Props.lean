import Verif.Views.Model
import Verif.CxVector.Props

/-!
# Spans of vectors that change (C137)

Specification: every vector is a list; a span is a vector, a position in it and a count, and says what the list says at those
positions as far as the list reaches.
-/

namespace Verif.Views

open Verif.Buf

variable {ι κ α : Type} [DecidableEq ι] [DecidableEq κ]

/-! ## Specification -/

/-- The lists, and for every span its vector, position and count. -/
structure Abs (ι κ α : Type) where
  lists : ι → List α
  views : κ → Option (ι × Nat × Nat)

/-- Position within the span and count of a subspan of a span of `n` elements. -/
def place (n : Nat) : Span.Sub → Nat × Nat
  | .first m | .firstStatic m => (0, m)
  | .last m | .lastStatic m => (n - m, m)
  | .subspan p m | .subspanStatic p m => (p, min m (n - p))

/-- The conditions of a statement: those of the vector's operation; a span of a given extent is at most as long as the vector's
capacity, or as the span it is made of; subspans are within the span, and so is every access. -/
def Pre (N : Nat) (a : Abs ι κ α) : Act ι κ α → Prop
  | .vec i o => CxVector.Pre N (a.lists i) o
  | .copy _ _ => True
  | .view _ _ ext => ext = Span.dynamicExtent ∨ ext ≤ N
  | .conv _ j ext => ∃ i o n, a.views j = some (i, o, n) ∧ (ext = Span.dynamicExtent ∨ ext ≤ n)
  | .sub _ j c => ∃ i o n, a.views j = some (i, o, n) ∧ c.Legal n
  | .read k p => ∃ i o n, a.views k = some (i, o, n) ∧ p < n
  | .write k p _ => ∃ i o n, a.views k = some (i, o, n) ∧ p < n
  | .iterate k => a.views k ≠ none
  | .count k => a.views k ≠ none

/-- What a statement does and answers. -/
def Post (N : Nat) (a : Abs ι κ α) (s : Act ι κ α) (a' : Abs ι κ α) (r : CxVector.Out α) : Prop :=
  match s with
  | .vec i o => ∃ l, CxVector.Post N (a.lists i) o l r ∧ a' = ⟨upd a.lists i l, a.views⟩
  | .copy d s => a' = ⟨upd a.lists d (a.lists s), a.views⟩ ∧ r = .unit
  | .view k i ext =>
    a' = ⟨a.lists, upd a.views k (some (i, 0, if ext = Span.dynamicExtent then (a.lists i).length else ext))⟩ ∧ r = .unit
  | .conv k j ext => ∀ i o n, a.views j = some (i, o, n) →
    a' = ⟨a.lists, upd a.views k (some (i, o, if ext = Span.dynamicExtent then n else ext))⟩ ∧ r = .unit
  | .sub k j c => ∀ i o n, a.views j = some (i, o, n) →
    a' = ⟨a.lists, upd a.views k (some (i, o + (place n c).1, (place n c).2))⟩ ∧ r = .unit
  | .read k p => a' = a ∧ ∀ i o n, a.views k = some (i, o, n) →
    ∃ x, r = .val x ∧ (o + p < (a.lists i).length → (a.lists i)[o + p]? = some x)
  | .write k p x => ∀ i o n, a.views k = some (i, o, n) →
    a' = ⟨upd a.lists i ((a.lists i).set (o + p) x), a.views⟩ ∧ r = .unit
  | .iterate k => a' = a ∧ ∀ i o n, a.views k = some (i, o, n) →
    ∃ m, r = .list m ∧ m.length = n ∧ ∀ q, q < n → o + q < (a.lists i).length → m[q]? = (a.lists i)[o + q]?
  | .count k => a' = a ∧ ∀ i o n, a.views k = some (i, o, n) → r = .nat n

/-- A program whose statements all meet their conditions, whatever was left open. -/
def Admissible (N : Nat) : Abs ι κ α → List (Act ι κ α) → Prop
  | _, [] => True
  | a, s :: ss => Pre N a s ∧ ∀ a' r, Post N a s a' r → Admissible N a' ss

/-- A possible result of a program. -/
def SpecRun (N : Nat) : Abs ι κ α → List (Act ι κ α) → Abs ι κ α → List (CxVector.Out α) → Prop
  | a, [], a', rs => a' = a ∧ rs = []
  | a, s :: ss, a', rs => ∃ a1 r rs', Post N a s a1 r ∧ SpecRun N a1 ss a' rs' ∧ rs = r :: rs'

/-! ## Lemmas -/

/-- The span is at position `o` of a storage of `N` elements, with `n` elements. -/
structure Window (N : Nat) (s : Span.Span) (o n : Nat) : Prop where
  ptr : s.ptr = some o
  size : Span.size s = n
  fits : o + n ≤ N
  ext : s.ext ≤ Span.dynamicExtent

theorem Window.views {N : Nat} {s : Span.Span} {o n : Nat} (h : Window N s o n) {mem : List α} (hm : mem.length = N) :
    Span.ViewsAt mem s o ((mem.drop o).take n) := by
  have hf := h.fits
  have hl : ((mem.drop o).take n).length = n := by rw [List.length_take, List.length_drop]; omega
  exact ⟨.inl h.ptr, by rw [hl, h.size], by omega, by rw [hl]⟩

structure Rel (N : Nat) (st : St ι κ α) (a : Abs ι κ α) : Prop where
  vecs : ∀ i, Rep N (st.vecs i) (a.lists i)
  spans : ∀ k, match st.spans k, a.views k with
    | some (i, s), some (j, o, n) => i = j ∧ Window N s o n
    | none, none => True
    | _, _ => False

theorem Rel.span {N : Nat} {st : St ι κ α} {a : Abs ι κ α} (h : Rel N st a) {k : κ} {i : ι} {o n : Nat}
    (hv : a.views k = some (i, o, n)) : ∃ s, st.spans k = some (i, s) ∧ Window N s o n := by
  have := h.spans k
  rw [hv] at this
  cases hs : st.spans k with
  | none => rw [hs] at this; exact this.elim
  | some q =>
    obtain ⟨j, s⟩ := q
    rw [hs] at this
    obtain ⟨rfl, hw⟩ := this
    exact ⟨s, rfl, hw⟩

theorem Rel.setSpan {N : Nat} {st : St ι κ α} {a : Abs ι κ α} (h : Rel N st a) (k : κ) {i : ι} {s : Span.Span} {o n : Nat}
    (hw : Window N s o n) :
    Rel N ⟨st.vecs, upd st.spans k (some (i, s))⟩ ⟨a.lists, upd a.views k (some (i, o, n))⟩ := by
  refine ⟨h.vecs, fun j => ?_⟩
  by_cases hj : j = k
  · subst hj; simp [upd, hw]
  · have := h.spans j
    simpa [upd, hj] using this

theorem Rel.setVec {N : Nat} {st : St ι κ α} {a : Abs ι κ α} (h : Rel N st a) (i : ι) {b : Buf α} {l : List α}
    (hr : Rep N b l) : Rel N ⟨upd st.vecs i b, st.spans⟩ ⟨upd a.lists i l, a.views⟩ := by
  refine ⟨fun j => ?_, h.spans⟩
  by_cases hj : j = i
  · subst hj; simpa [upd] using hr
  · simpa [upd, hj] using h.vecs j

theorem sub_window {N : Nat} (hN : N < 18446744073709551615) {s : Span.Span} {o n : Nat} (h : Window N s o n) (c : Span.Sub)
    (hl : c.Legal n) : ∃ t, c.run N s = some (.ok t) ∧ Window N t (o + (place n c).1) (place n c).2 := by
  obtain ⟨hp, hs, hf, he⟩ := h
  have hn : n < Span.dynamicExtent := by unfold Span.dynamicExtent; omega
  have hne : n ≤ s.ext := by
    unfold Span.size at hs
    split at hs
    · rename_i h; omega
    · omega
  have hend : Span.ptrAdd N (some o) (n : Nat) = .ok (some (o + n)) := by
    rw [Span.ptrAdd_in (by omega) (by omega)]; congr 2
  have hback : ∀ m, m ≤ n → Span.ptrAdd N (some (o + n)) (-(m : Nat)) = .ok (some (o + (n - m))) := by
    intro m hm
    rw [Span.ptrAdd_in (by omega) (by omega)]; congr 2; omega
  have hfwd : ∀ m, m ≤ n → Span.ptrAdd N (some o) (m : Nat) = .ok (some (o + m)) := by
    intro m hm
    rw [Span.ptrAdd_in (by omega) (by omega)]; congr 2
  have hsz : ∀ m, m ≤ n → Span.szSub n m = n - m := by
    intro m hm
    unfold Span.szSub
    have : ((n : Int) - m) = ((n - m : Nat) : Int) := by omega
    rw [this]
    have : n - m < 18446744073709551616 := by omega
    generalize n - m = d at *
    omega
  cases c with
  | first m =>
    have hl : m ≤ n := hl
    exact ⟨_, rfl, by simp [Span.firstD, Span.ofPtrCount, place, hp], Span.size_dyn _ _, by simp [place]; omega, Nat.le_refl _⟩
  | firstStatic m =>
    have hl : m ≤ n := hl
    refine ⟨Span.ofPtrCount m s.ptr m, ?_, by simp [Span.ofPtrCount, place, hp], Span.size_count _, by simp [place]; omega, ?_⟩
    · simp [Span.Sub.run, Span.firstS, Nat.le_trans hl hne]
    · show m ≤ _; omega
  | last m =>
    have hl : m ≤ n := hl
    refine ⟨Span.ofPtrCount Span.dynamicExtent (some (o + (n - m))) m, ?_, rfl, Span.size_dyn _ _, by simp [place]; omega, Nat.le_refl _⟩
    simp only [Span.Sub.run, Span.lastD, hp, hs, hend, Outcome.ok_bind, hback m hl]; rfl
  | lastStatic m =>
    have hl : m ≤ n := hl
    refine ⟨Span.ofPtrCount m (some (o + (n - m))) m, ?_, rfl, Span.size_count _, by simp [place]; omega, ?_⟩
    · simp only [Span.Sub.run, Span.lastS, hp, hs, hend, Outcome.ok_bind, hback m hl, if_pos (Nat.le_trans hl hne)]; rfl
    · show m ≤ _; omega
  | subspan p m =>
    have hl : p ≤ n := hl
    refine ⟨Span.ofPtrCount Span.dynamicExtent (some (o + p)) (min m (n - p)), ?_, rfl, Span.size_dyn _ _, by simp [place]; omega, Nat.le_refl _⟩
    simp only [Span.Sub.run, Span.subspanD, hp, hs, hfwd p hl, Outcome.ok_bind, hsz p hl]; rfl
  | subspanStatic p m =>
    have hl : p + m ≤ n := hl
    have hmin : min m (n - p) = m := by omega
    refine ⟨Span.ofPtrCount m (some (o + p)) m, ?_, rfl, by simp only [place, hmin]; exact Span.size_count _, by simp [place]; omega, ?_⟩
    · simp only [Span.Sub.run, Span.subspanS]
      rw [if_pos (by omega), if_pos ⟨by omega, by omega, by omega⟩, hp, hfwd p (by omega)]; rfl
    · show m ≤ _; omega

theorem step_refines {N : Nat} (hN : N < 18446744073709551615) {st : St ι κ α} {a : Abs ι κ α} (h : Rel N st a) (s : Act ι κ α)
    (hp : Pre N a s) : ∃ st' a' r, step N st s = .ok (st', r) ∧ Post N a s a' r ∧ Rel N st' a' := by
  cases s with
  | vec i o =>
    obtain ⟨b, l, r, e, hpost, hr⟩ := CxVector.step_refines (by rw [szMod_lit]; omega) (h.vecs i) o hp
    exact ⟨_, _, r, by simp [step, e], ⟨l, hpost, rfl⟩, h.setVec i hr⟩
  | copy d s => exact ⟨_, _, _, rfl, ⟨rfl, rfl⟩, h.setVec d (h.vecs s)⟩
  | view k i ext =>
    refine ⟨_, _, _, rfl, ⟨rfl, rfl⟩, h.setSpan k ?_⟩
    have hle := (h.vecs i).le
    have hsz := (h.vecs i).size
    have hmod : (((st.vecs i).size : Int) - 0) % 18446744073709551616 = ((a.lists i).length : Int) := by
      rw [hsz]
      generalize (a.lists i).length = q at *
      omega
    refine ⟨rfl, ?_, ?_, ?_⟩
    · by_cases he : ext = Span.dynamicExtent
      · simp [Span.size, Span.ofRange, Span.ofPtrs, he] at hmod ⊢
        omega
      · simp [Span.size, Span.ofRange, Span.ofPtrs, he]
    · split
      · omega
      · rename_i hne; rcases hp with hp | hp
        · exact absurd hp hne
        · omega
    · rcases hp with hp | hp
      · exact Nat.le_of_eq hp
      · show ext ≤ _; unfold Span.dynamicExtent; omega
  | conv k j ext =>
    obtain ⟨i, o, n, hv, hx⟩ := hp
    obtain ⟨s, es, hw⟩ := h.span hv
    refine ⟨⟨st.vecs, upd st.spans k (some (i, Span.ofSpan ext s))⟩,
      ⟨a.lists, upd a.views k (some (i, o, if ext = Span.dynamicExtent then n else ext))⟩, .unit, by simp [step, withSpan, es], ?_, h.setSpan k ?_⟩
    · intro i' o' n' hv'
      rw [hv] at hv'; cases hv'
      exact ⟨rfl, rfl⟩
    · have hf := hw.fits
      refine ⟨hw.ptr, ?_, ?_, ?_⟩
      · by_cases he : ext = Span.dynamicExtent
        · subst he
          simp only [↓reduceIte]
          exact (Span.size_dyn _ _).trans hw.size
        · simp only [he, ↓reduceIte]
          exact Span.size_static he _ _
      · split
        · exact hf
        · rename_i hne; rcases hx with hx | hx
          · exact absurd hx hne
          · omega
      · rcases hx with hx | hx
        · exact Nat.le_of_eq hx
        · show ext ≤ _; unfold Span.dynamicExtent; omega
  | sub k j c =>
    obtain ⟨i, o, n, hv, hl⟩ := hp
    obtain ⟨s, es, hw⟩ := h.span hv
    obtain ⟨t, et, hwt⟩ := sub_window hN hw c hl
    refine ⟨⟨st.vecs, upd st.spans k (some (i, t))⟩, _, .unit, by simp [step, withSpan, es, (h.vecs i).cap, et], ?_, h.setSpan k hwt⟩
    intro i' o' n' hv'
    rw [hv] at hv'; cases hv'
    exact ⟨rfl, rfl⟩
  | read k p =>
    obtain ⟨i, o, n, hv, hl⟩ := hp
    obtain ⟨s, es, hw⟩ := h.span hv
    have hf := hw.fits
    have hcap := (h.vecs i).cap
    have hlt : o + p < (st.vecs i).storage.length := by omega
    refine ⟨st, a, .val (st.vecs i).storage[o + p], ?_, ⟨rfl, ?_⟩, h⟩
    · simp [step, withSpan, es, Span.get, hw.ptr, arrGet_ok.mpr (List.getElem?_eq_getElem hlt)]
    · intro i' o' n' hv'
      rw [hv] at hv'; cases hv'
      refine ⟨_, rfl, fun hlen => ?_⟩
      obtain ⟨stale, e⟩ := (h.vecs i).vis
      rw [← List.getElem?_eq_getElem hlt, e, List.getElem?_append_left hlen]
  | write k p x =>
    obtain ⟨i, o, n, hv, hl⟩ := hp
    obtain ⟨s, es, hw⟩ := h.span hv
    have hf := hw.fits
    have hcap := (h.vecs i).cap
    have hlt : o + p < (st.vecs i).storage.length := by omega
    refine ⟨⟨upd st.vecs i ⟨(st.vecs i).storage.set (o + p) x, (st.vecs i).size⟩, st.spans⟩,
      ⟨upd a.lists i ((a.lists i).set (o + p) x), a.views⟩, .unit, by simp [step, withSpan, es, Span.set, hw.ptr, hlt], ?_, h.setVec i ?_⟩
    · intro i' o' n' hv'
      rw [hv] at hv'; cases hv'
      exact ⟨rfl, rfl⟩
    · obtain ⟨hc, hs, stale, e⟩ := h.vecs i
      refine ⟨by simp [hc], by simp [hs], ?_⟩
      by_cases hq : o + p < (a.lists i).length
      · exact ⟨stale, by rw [e, List.set_append_left _ _ hq]⟩
      · refine ⟨stale.set (o + p - (a.lists i).length) x, ?_⟩
        rw [List.set_eq_of_length_le (l := a.lists i) (by omega)]
        show (st.vecs i).storage.set (o + p) x = _
        rw [e, List.set_append_right _ _ (by omega)]
  | iterate k =>
    have hk : a.views k ≠ none := hp
    obtain ⟨⟨i, o, n⟩, hv⟩ := Option.ne_none_iff_exists'.mp hk
    obtain ⟨s, es, hw⟩ := h.span hv
    have hcap := (h.vecs i).cap
    have hf := hw.fits
    have ht := (Span.C52_span_access (hw.views hcap)).2.2.1
    refine ⟨st, a, .list (((st.vecs i).storage.drop o).take n), by simp [step, withSpan, es, ht], ⟨rfl, ?_⟩, h⟩
    intro i' o' n' hv'
    rw [hv] at hv'; cases hv'
    refine ⟨_, rfl, by rw [List.length_take, List.length_drop]; omega, fun q hq hlen => ?_⟩
    obtain ⟨stale, e⟩ := (h.vecs i).vis
    rw [List.getElem?_take, if_pos hq, List.getElem?_drop, e, List.getElem?_append_left hlen]
  | count k =>
    have hk : a.views k ≠ none := hp
    obtain ⟨⟨i, o, n⟩, hv⟩ := Option.ne_none_iff_exists'.mp hk
    obtain ⟨s, es, hw⟩ := h.span hv
    refine ⟨st, a, .nat n, by simp [step, withSpan, es, hw.size], ⟨rfl, ?_⟩, h⟩
    intro i' o' n' hv'
    rw [hv] at hv'; cases hv'
    rfl

theorem run_refines {N : Nat} (hN : N < 18446744073709551615) (ss : List (Act ι κ α)) : ∀ {st : St ι κ α} {a : Abs ι κ α},
    Rel N st a → Admissible N a ss → ∃ st' a' rs, run N st ss = .ok (st', rs) ∧ SpecRun N a ss a' rs ∧ Rel N st' a' := by
  induction ss with
  | nil => intro st a h _; exact ⟨st, a, [], rfl, ⟨rfl, rfl⟩, h⟩
  | cons s ss ih =>
    intro st a h ha
    obtain ⟨s1, a1, r, e1, hpost, hr1⟩ := step_refines hN h s ha.1
    obtain ⟨s2, a2, rs, e2, hrun, hr2⟩ := ih hr1 (ha.2 a1 r hpost)
    exact ⟨s2, a2, r :: rs, by simp [run, e1, e2], ⟨a1, r, rs, hpost, hrun, rfl⟩, hr2⟩

theorem start_rel {N : Nat} {d : α} (init : ι → List α) (vs : ι → Buf α) (hv : ∀ i, ofList N d (init i) = some (vs i)) :
    Rel N (⟨vs, fun _ => none⟩ : St ι κ α) ⟨init, fun _ => none⟩ :=
  ⟨fun i => Rep.ofList (hv i), fun _ => trivial⟩

/-! ## Theorems -/

/-- **C137 (partial).** Every program over any number of vectors and spans of them, in which every access through a span is
within the span: nothing is undefined, whatever was done to the vectors since the span was taken (elements added or removed, other
contents assigned, vectors cleared); reading through a span gives the element that the vector has at that place by then, as far as the vector
reaches; writing through a span changes that element of the vector and nothing else.  Missing: what a span says
beyond the end of the vector, see `C137_removed_violated` and `C137_extent_violated`. -/
theorem C137_views_partial {N : Nat} (hN : N < 18446744073709551615) {d : α} {init : ι → List α} {vs : ι → Buf α}
    (hv : ∀ i, ofList N d (init i) = some (vs i)) {ss : List (Act ι κ α)} (ha : Admissible N ⟨init, fun _ => none⟩ ss) :
    ∃ st' a' rs, run N ⟨vs, fun _ => none⟩ ss = .ok (st', rs) ∧ SpecRun N ⟨init, fun _ => none⟩ ss a' rs ∧
      ∀ i, elems (st'.vecs i) = .ok (a'.lists i) := by
  obtain ⟨st', a', rs, e, hs, hr⟩ := run_refines hN ss (start_rel init vs hv) ha
  exact ⟨st', a', rs, e, hs, fun i => (hr.vecs i).elems⟩

/-- **C137, spans do not notice removals.** In every reachable state, a span of the whole of a vector still gives all the elements
after the vector is cleared, and the last one after it is popped; nothing is undefined. -/
theorem C137_removed_violated {N : Nat} (hN : N < 18446744073709551615) {d : α} {init : ι → List α} {vs : ι → Buf α}
    (hv : ∀ i, ofList N d (init i) = some (vs i)) {ss : List (Act ι κ α)} (ha : Admissible N ⟨init, fun _ => none⟩ ss) (k : κ) (i : ι) :
    ∃ st a rs, run N ⟨vs, fun _ => none⟩ ss = .ok (st, rs) ∧ SpecRun N ⟨init, fun _ => none⟩ ss a rs ∧
      (∃ st', run N st [.view k i Span.dynamicExtent, .vec i .clear, .vec i .iterate, .iterate k] =
        .ok (st', [.unit, .unit, .list [], .list (a.lists i)])) ∧
      ∀ l x, a.lists i = l ++ [x] →
        ∃ st', run N st [.view k i Span.dynamicExtent, .vec i .popBack, .vec i .iterate, .read k l.length] =
          .ok (st', [.unit, .val x, .list l, .val x]) := by
  obtain ⟨st, a, rs, e, hs, hr⟩ := run_refines hN ss (start_rel (κ := κ) init vs hv) ha
  refine ⟨st, a, rs, e, hs, ?_, ?_⟩
  all_goals
    have hle := (hr.vecs i).le
    have hsz := (hr.vecs i).size
    have hcap := (hr.vecs i).cap
    obtain ⟨stale, hst⟩ := (hr.vecs i).vis
    have hw : Window N (Span.ofRange Span.dynamicExtent 0 (st.vecs i).size) 0 (a.lists i).length := by
      refine ⟨rfl, ?_, by omega, Nat.le_refl _⟩
      simp [Span.size, Span.ofRange, Span.ofPtrs]
      rw [hsz]
      generalize (a.lists i).length = q at *
      omega
  · have ht := (Span.C52_span_access (hw.views hcap)).2.2.1
    have hl : (st.vecs i).storage.take (a.lists i).length = a.lists i := by rw [hst]; simp
    rw [List.drop_zero, hl] at ht
    simp [run, step, upd, withSpan, CxVector.step, elems, readRange, ht]
  · intro l x hl
    have hr' := hr.vecs i
    rw [hl] at hr'
    obtain ⟨b', e1, hb'⟩ := hr'.popBack
    have hstor : b'.storage = (st.vecs i).storage := by
      unfold popBack at e1
      simp only [Outcome.bind_eq_ok] at e1
      obtain ⟨y, _, e2⟩ := e1
      cases e2; rfl
    have hget : Span.get (st.vecs i).storage (Span.ofRange Span.dynamicExtent 0 (st.vecs i).size) l.length = .ok x := by
      unfold Span.get
      rw [hw.ptr]
      simp only [Nat.zero_add]
      rw [arrGet_ok, hst, hl, List.append_assoc]
      simp
    simp [run, step, upd, withSpan, CxVector.step, e1, hb'.elems, hstor, hget]

/-- **C137, extents are not checked.** In every reachable state, a span of given extent can be made of a vector with fewer elements:
reading there is not undefined within the capacity, though the vector has no such element, and undefined beyond it. -/
theorem C137_extent_violated {N : Nat} (hN : N < 18446744073709551615) {d : α} {init : ι → List α} {vs : ι → Buf α}
    (hv : ∀ i, ofList N d (init i) = some (vs i)) {ss : List (Act ι κ α)} (ha : Admissible N ⟨init, fun _ => none⟩ ss) (k : κ) (i : ι)
    (ext p : Nat) (he : ext < Span.dynamicExtent) (hp : p < ext) :
    ∃ st a rs, run N ⟨vs, fun _ => none⟩ ss = .ok (st, rs) ∧ SpecRun N ⟨init, fun _ => none⟩ ss a rs ∧
      ((a.lists i).length ≤ p → p < N → ∃ st' x, run N st [.view k i ext, .read k p] = .ok (st', [.unit, .val x])) ∧
      (N ≤ p → run N st [.view k i ext, .read k p] = .ub) := by
  obtain ⟨st, a, rs, e, hs, hr⟩ := run_refines hN ss (start_rel (κ := κ) init vs hv) ha
  refine ⟨st, a, rs, e, hs, fun _ hlt => ?_, fun hge => ?_⟩
  · have hcap := (hr.vecs i).cap
    have hlt' : p < (st.vecs i).storage.length := by omega
    have hg : arrGet (st.vecs i).storage p = .ok (st.vecs i).storage[p] := arrGet_ok.mpr (List.getElem?_eq_getElem hlt')
    simp [run, step, upd, withSpan, Span.get, Span.ofRange, Span.ofPtrs, hg]
  · have hg := (hr.vecs i).get_ub hge
    simp [run, step, upd, withSpan, Span.get, Span.ofRange, Span.ofPtrs, hg]

/-- Two spans of a vector, one of its last two elements; elements are written through them, vectors are assigned and cleared. -/
example : Admissible (ι := Bool) (κ := Nat) (α := Nat) 4 ⟨fun b => if b then [1, 2, 3] else [], fun _ => none⟩
    [.view 0 true Span.dynamicExtent, .sub 1 0 (.last 2), .write 1 1 7, .copy false true, .vec true .clear, .vec true (.pushBack 9),
      .read 0 0, .iterate 1] := by
  simp [Admissible, Pre, Post, upd, place, Span.Sub.Legal, CxVector.Pre, CxVector.Post]

example : ∃ st', run 4 (⟨fun _ => ⟨[1, 2, 3, 0], 3⟩, fun _ => none⟩ : St Nat Nat Nat)
    [.view 0 0 Span.dynamicExtent, .sub 1 0 (.last 2), .write 1 1 7, .read 0 2, .vec 0 .popBack, .vec 0 (.pushBack 9), .iterate 1] =
    .ok (st', [.unit, .unit, .unit, .val 7, .val 7, .val 9, .list [2, 9]]) := ⟨_, rfl⟩

end Verif.Views
