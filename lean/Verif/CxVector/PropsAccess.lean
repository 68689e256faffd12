import Verif.CxVector.Access
import Verif.CxVector.Props

/-!
# Properties of access by an index (C166)
-/

namespace Verif.CxVector

open Verif.Buf

variable {α : Type} {N : Nat} {b : Buf α} {l : List α}

theorem stored (h : Rep N b l) {i : Nat} (hi : i < l.length) : b.storage[i]? = some l[i] := by
  obtain ⟨stale, e⟩ := h.vis
  rw [e, List.getElem?_append_left hi, List.getElem?_eq_getElem hi]

/-- **C166, reading, all but `get<I>(v)` in a constant expression.** -/
theorem C166_read_partial (h : Rep N b l) {i : Nat} (hi : i < l.length) (k : Bool) (f : Form) (c : Cat) (hf : k = true → f ≠ .free) :
    eval k f c b i .read = .value l[i] b := by
  have hlt : ¬ b.storage.length ≤ i := by have := h.le; have := h.cap; omega
  have hx : index b i = .ok l[i] := arrGet_ok.mpr (stored h hi)
  cases k <;> cases f <;> simp_all [eval, use, Form.isConstexpr]

/-- **C166, writing, all but `get<I>(v)` in a constant expression.** What is assigned replaces the element; elements of const vectors cannot be assigned to. -/
theorem C166_write_partial (h : Rep N b l) {i : Nat} (hi : i < l.length) (k : Bool) (f : Form) (hf : k = true → f ≠ .free) (x : α) :
    (∃ b', eval k f .lvalue b i (.write x) = .value x b' ∧ Rep N b' (l.set i x)) ∧ eval k f .constant b i (.write x) = .rejected := by
  have hlt : i < b.storage.length := by have := h.le; have := h.cap; omega
  have hb : assign b i x = .ok ⟨b.storage.set i x, b.size⟩ := by simp [assign, hlt]
  have hle : ¬ b.storage.length ≤ i := by omega
  refine ⟨⟨⟨b.storage.set i x, b.size⟩, ?_, by simp [h.cap], by simp [h.size], ?_⟩, ?_⟩
  · cases k <;> cases f <;> simp_all [eval, use, Form.isConstexpr, writable]
  · obtain ⟨stale, e⟩ := h.vis
    exact ⟨stale, by rw [e, List.set_append_left _ _ hi]⟩
  · cases k <;> cases f <;> simp_all [eval, use, Form.isConstexpr, writable]

/-- **C166, after any history.** -/
theorem C166_histories (N : Nat) (d : α) (hN : N < szMod) (ops : List (Op α)) (ha : Admissible N [] ops) :
    ∃ b l rs, run N (init N d) ops = .ok (b, rs) ∧ SpecRun N [] ops l rs ∧
      ∀ i (hi : i < l.length) c, eval false .free c b i .read = .value l[i] b ∧ eval false .member c b i .read = .value l[i] b ∧
        eval false .bracket c b i .read = .value l[i] b := by
  obtain ⟨b, l, rs, e, hs, hr⟩ := run_refines hN ops (Rep.init N d) ha
  exact ⟨b, l, rs, e, hs, fun i hi c => ⟨C166_read_partial hr hi _ _ _ (by simp), C166_read_partial hr hi _ _ _ (by simp),
    C166_read_partial hr hi _ _ _ (by simp)⟩⟩

/-- **C166, beyond the capacity.** A constant index that is too large is rejected; so is `v[i]` in a constant expression, which is otherwise undefined. -/
theorem C166_beyond (h : Rep N b l) {i : Nat} (hi : N ≤ i) (k : Bool) (c : Cat) (hc : c ≠ .constant) (u : Use α) :
    eval k .member c b i u = .rejected ∧ eval k .free c b i u = .rejected ∧ eval true .bracket c b i u = .rejected ∧
      eval false .bracket c b i u = .undefined := by
  have hle : b.storage.length ≤ i := by rw [h.cap]; exact hi
  have hx : index b i = .ub := by simp [index, arrGet, List.getElem?_eq_none hle]
  have hb : ∀ x, assign b i x = .ub := fun x => by simp [assign, arrSet, Nat.not_lt.mpr hle]
  cases k <;> cases c <;> cases u <;> simp_all [eval, use, Form.isConstexpr, writable]

/-- **C166, disproved between the size and the capacity.** No expression checks the size: an index of something that is not an element is accepted when the
program runs, whichever is used, and by the members in constant expressions too. -/
theorem C166_size_violated (h : Rep N b l) {i : Nat} (hi : l.length ≤ i) (hN : i < N) (k : Bool) (f : Form) (c : Cat)
    (hf : k = true → f ≠ .free) : ∃ x, eval k f c b i .read = .value x b := by
  have hlt : i < b.storage.length := by rw [h.cap]; exact hN
  have hle : ¬ b.storage.length ≤ i := by omega
  refine ⟨b.storage[i], ?_⟩
  have hx : index b i = .ok b.storage[i] := arrGet_ok.mpr (List.getElem?_eq_getElem hlt)
  cases k <;> cases f <;> simp_all [eval, use, Form.isConstexpr]

/-- **C166, disproved of `get<I>(v)` in constant expressions**: it is rejected, for every vector and index, also where `v.get<I>()` is not. -/
theorem C166_constant_violated (h : Rep N b l) {i : Nat} (hi : i < l.length) (c : Cat) :
    (∀ u, eval true .free c b i u = .rejected) ∧ eval true .member c b i .read = .value l[i] b :=
  ⟨fun _ => rfl, C166_read_partial h hi _ _ _ (by simp)⟩

/-- **C166, temporary objects**: only the members give access to elements that can be assigned to. -/
theorem C166_temporary (h : Rep N b l) {i : Nat} (hi : i < l.length) (x : α) :
    eval false .free .temporary b i (.write x) = .rejected ∧
      ∃ b', eval false .member .temporary b i (.write x) = .value x b' ∧ eval false .bracket .temporary b i (.write x) = .value x b' ∧
        Rep N b' (l.set i x) := by
  have hlt : ¬ b.storage.length ≤ i := by have := h.le; have := h.cap; omega
  obtain ⟨⟨b', e, hr⟩, -⟩ := C166_write_partial h hi false .member (by simp) x
  refine ⟨by simp [eval, use, Form.isConstexpr, writable, hlt], b', ?_, ?_, hr⟩ <;>
    simpa [eval, use, Form.isConstexpr, writable, hlt] using e

/-! ## Examples -/

theorem vec_rep : Rep 4 (⟨[7, 8, 9, 0], 3⟩ : Buf Nat) [7, 8, 9] := ⟨rfl, rfl, [0], rfl⟩

example : eval false .free .constant (⟨[7, 8, 9, 0], 3⟩ : Buf Nat) 2 .read = .value 9 ⟨[7, 8, 9, 0], 3⟩ :=
  C166_read_partial vec_rep (i := 2) (by decide) _ _ _ (by decide)
example := C166_write_partial vec_rep (i := 1) (by decide) true .member (by decide) 5
example := C166_beyond vec_rep (i := 4) (by decide) false .lvalue (by decide) (.write 1)
example := C166_size_violated vec_rep (i := 3) (by decide) (by decide) false .free .lvalue (by decide)
example := C166_constant_violated vec_rep (i := 0) (by decide) .constant
example := C166_temporary vec_rep (i := 0) (by decide) 1
example := C166_histories (α := Nat) 3 0 (by decide) [.pushBack 1, .pushBack 2, .popBack] (by simp [Admissible, Pre, Post])

end Verif.CxVector
