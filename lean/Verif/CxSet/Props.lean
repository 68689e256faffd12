import Verif.CxSet.Lemmas

/-!
# Properties of `stdx::cx_set`  (C29, C30)
-/

namespace Verif.CxSet

open Verif.Buf

variable {α : Type} [DecidableEq α]

/-- **C29.** For every capacity, element type and admissible history, `cx_set` has no
undefined behaviour, answers as the abstract finite set does, and ends representing it. -/
theorem C29_cx_set_refines_set (N : Nat) (d : α) (hN : N < szMod) (ops : List (Op α))
    (ha : Admissible N Abs.empty ops) :
    ∃ b' s' rs, run (init N d) ops = .ok (b', rs) ∧ SpecRun Abs.empty ops s' rs ∧
      b'.size = s'.card ∧ s'.card ≤ N ∧ (∀ k, ∃ r, contains b' k = .ok r ∧ (r = true ↔ s'.mem k)) ∧
      ∃ l, elems b' = .ok l ∧ l.Nodup ∧ (∀ x, x ∈ l ↔ s'.mem x) ∧ l.length = s'.card := by
  obtain ⟨b', s', rs, e, hs, l, hr, hn, hm, hc⟩ := run_refines hN ops
    (b := init N d) ⟨[], Rep.init N d, List.nodup_nil, by simp [Abs.empty], rfl⟩ ha
  exact ⟨b', s', rs, e, hs, by rw [hr.size, hc], by rw [hc]; exact hr.le,
    fun k => ⟨_, contains_rep hr k, by simp [hm]⟩, l, hr.elems, hn, fun x => (hm x).symm, hc.symm⟩

example : Admissible 2 Abs.empty ([.insert 1, .insert 2, .insert 1, .erase 1, .insert 3,
    .contains 2, .iterate] : List (Op Nat)) := by
  simp only [Admissible, Pre, Post, Abs.empty]
  grind

/-- **C29 (merge).** Merging another `cx_set` (of any capacity) gives the union, provided the
union fits. -/
theorem C29_cx_set_merge_union (N M : Nat) (hN : N < szMod) (b t : Buf α) (s u : Abs α)
    (hb : SRep N b s) (ht : SRep M t u)
    (hroom : ∀ ys : List α, ys.Nodup → (∀ y ∈ ys, u.mem y ∧ ¬ s.mem y) → s.card + ys.length ≤ N) :
    ∃ xs b' s', elems t = .ok xs ∧ merge b xs = .ok b' ∧ SRep N b' s' ∧
      (∀ x, s'.mem x ↔ s.mem x ∨ u.mem x) := by
  obtain ⟨xs, hr, hn, hm, hc⟩ := ht
  obtain ⟨b', s', r, e, hpost, hrep⟩ := step_refines hN hb (.merge xs)
    (fun ys hy h => hroom ys hy (fun y hy' => by rw [hm]; exact h y hy'))
  refine ⟨xs, b', s', hr.elems, ?_, hrep, ?_⟩
  · simp only [step] at e
    cases h : merge b xs <;> simp_all
  · intro x; rw [hpost.1, hm]; exact Or.comm

example : SRep 3 (⟨[1, 2, 0], 2⟩ : Buf Nat) ⟨(· ∈ [1, 2]), 2⟩ ∧
    SRep 2 (⟨[2, 3], 2⟩ : Buf Nat) ⟨(· ∈ [2, 3]), 2⟩ ∧
    merge (⟨[1, 2, 0], 2⟩ : Buf Nat) [2, 3] = .ok ⟨[1, 2, 3], 3⟩ :=
  ⟨⟨[1, 2], ⟨rfl, rfl, [0], rfl⟩, by decide, fun _ => Iff.rfl, rfl⟩,
   ⟨[2, 3], ⟨rfl, rfl, [], rfl⟩, by decide, fun _ => Iff.rfl, rfl⟩, by decide⟩

theorem merge_ub {N : Nat} (hN : N < szMod) (xs : List α) :
    ∀ {b : Buf α} {l : List α}, Rep N b l → ∀ ys : List α, ys.Nodup →
      (∀ y ∈ ys, y ∈ xs ∧ y ∉ l) → N < l.length + ys.length → merge b xs = .ub := by
  induction xs with
  | nil =>
    intro b l h ys _ hy hlt
    have hle := h.le
    cases ys with
    | nil => simp at hlt; omega
    | cons y ys => have := (hy y (by simp)).1; simp at this
  | cons x xs ih =>
    intro b l h ys hnd hy hlt
    by_cases hx : x ∈ l
    · obtain ⟨b1, l1, e1, h1, hl1⟩ := insert_rep hN h x (.inl hx)
      simp only [hx, ↓reduceIte] at hl1
      subst hl1
      have := ih h1 ys hnd (by grind) hlt
      simp [merge, e1, this]
    · by_cases hfull : l.length = N
      · have : insert b x = .ub := by
          unfold insert
          rw [contains_rep h]
          simp [hx, h.append_ub hfull]
        simp [merge, this]
      · have hle := h.le
        obtain ⟨b1, l1, e1, h1, hl1⟩ := insert_rep hN h x (.inr (by omega))
        simp only [hx, ↓reduceIte] at hl1
        subst hl1
        have := ih h1 (ys.erase x) (hnd.erase x) (by
          intro y hy'
          have hmem := (hnd.mem_erase_iff).mp hy'
          have := hy y hmem.2
          grind) (by
          have := List.length_erase (a := x) (l := ys)
          simp; split at this <;> omega)
        simp [merge, e1, this]

/-- **C29 (undefined cases).** In every representing state an operation is undefined exactly
when its precondition fails: no room for a new element, or popping an empty set. -/
theorem C29_cx_set_ub_iff (N : Nat) (hN : N < szMod) (b : Buf α) (s : Abs α)
    (h : SRep N b s) (o : Op α) : step b o = .ub ↔ ¬ Pre N s o := by
  constructor
  · intro hub hp
    obtain ⟨_, _, _, e, _⟩ := step_refines hN h o hp
    rw [e] at hub; simp at hub
  · intro hp
    obtain ⟨l, hr, hn, hm, hc⟩ := h
    have hle := hr.le
    cases o with
    | insert k =>
      simp only [Pre, not_or, hm, hc] at hp
      simp only [step, insert]
      rw [contains_rep hr]
      simp [hp.1, hr.append_ub (by omega : l.length = N)]
    | merge xs =>
      simp only [Pre, hm, hc] at hp
      simp only [Classical.not_forall] at hp
      obtain ⟨ys, hnd, hy, hlt⟩ := hp
      simp [step, merge_ub hN xs hr ys hnd hy (by omega)]
    | popBack =>
      have hl : l = [] := by
        have : s.card = 0 := Classical.not_not.mp hp
        rw [hc] at this; exact List.length_eq_zero_iff.mp this
      subst hl
      simp [step, hr.popBack_ub hN]
    | erase k => exact absurd trivial hp
    | clear => exact absurd trivial hp
    | contains k => exact absurd trivial hp
    | size => exact absurd trivial hp
    | empty => exact absurd trivial hp
    | iterate => exact absurd trivial hp

example : step (⟨[1, 2], 2⟩ : Buf Nat) (.insert 3) = .ub ∧
    step (⟨[1, 2], 2⟩ : Buf Nat) (.insert 2) = .ok (⟨[1, 2], 2⟩, .bool false) := by decide

/-- **C30 (membership).** Whatever the list of initial elements, also with repetitions, the
constructed set contains exactly the listed elements. -/
theorem C30_cx_set_initial_contains (N : Nat) (d : α) (ts : List α) (b : Buf α)
    (hb : ofList N d ts = some b) (k : α) : contains b k = .ok (decide (k ∈ ts)) :=
  contains_rep (Rep.ofList hb) k

/-- **C30, partial.** If the initial elements are pairwise distinct, the constructed set
represents exactly that set, so every later admissible history behaves as for an abstract set
(in particular `erase(k)` makes `contains(k)` false and `size()` is the number of elements).
Missing for the full claim: initial lists with repetitions, for which it is false
(`C30_cx_set_initial_fails`). -/
theorem C30_cx_set_initial_partial (N : Nat) (d : α) (hN : N < szMod) (ts : List α) (b : Buf α)
    (hb : ofList N d ts = some b) (hd : ts.Nodup) (ops : List (Op α))
    (ha : Admissible N ⟨(· ∈ ts), ts.length⟩ ops) :
    ∃ b' s' rs, run b ops = .ok (b', rs) ∧ SpecRun ⟨(· ∈ ts), ts.length⟩ ops s' rs ∧
      SRep N b' s' :=
  run_refines hN ops ⟨ts, Rep.ofList hb, hd, fun _ => Iff.rfl, rfl⟩ ha

example : Admissible 3 ⟨(· ∈ [1, 2]), 2⟩ ([.erase 1, .contains 1, .insert 4, .insert 5] :
    List (Op Nat)) := by
  simp only [Admissible, Pre, Post]
  grind

/-- **C30 fails** for repeated initial elements: `cx_set{k, k}` reports size 2, and after
`erase(k)` (which reports one removal) it still contains `k`. -/
theorem C30_cx_set_initial_fails (k d : α) :
    ∃ b b', ofList 2 d [k, k] = some b ∧ b.size = 2 ∧
      erase b k = .ok (b', 1) ∧ contains b' k = .ok true := by
  refine ⟨⟨[k, k], 2⟩, ⟨[k, k], 1⟩, rfl, rfl, ?_, ?_⟩
  · simp [erase, eraseIf, find, scan, arrGet, szDec]
  · simp [contains, find, scan, arrGet]

/-- **C30 fails**, in general: with any repetition in the initial list, `size()` is strictly
larger than the number of distinct elements. -/
theorem C30_cx_set_initial_size_fails (N : Nat) (d : α) (ts : List α) (b : Buf α)
    (hb : ofList N d ts = some b) (hd : ¬ ts.Nodup) :
    ts.eraseDups.length < b.size := by
  rw [(Rep.ofList hb).size]
  clear hb
  have key : ∀ (n : Nat) (ts : List α), ts.length = n →
      ts.eraseDups.length ≤ ts.length ∧ (¬ ts.Nodup → ts.eraseDups.length < ts.length) := by
    intro n
    induction n using Nat.strongRecOn with
    | ind n ih =>
      intro ts hlen
      cases ts with
      | nil => simp
      | cons x xs =>
        rw [List.eraseDups_cons]
        have hf : (xs.filter (fun b => !b == x)).length ≤ xs.length := List.length_filter_le _ _
        have hi := ih (xs.filter (fun b => !b == x)).length (by simp at hlen; omega) _ rfl
        refine ⟨by simp; omega, fun hn => ?_⟩
        rw [List.nodup_cons] at hn
        by_cases hx : x ∈ xs
        · have : (xs.filter (fun b => !b == x)).length < xs.length := by
            rw [List.length_filter_lt_length_iff_exists]
            exact ⟨x, hx, by simp⟩
          simp; omega
        · have hxs : ¬ xs.Nodup := fun h => hn ⟨hx, h⟩
          have he : xs.filter (fun b => !b == x) = xs := by
            rw [List.filter_eq_self]; intro a ha; simp; rintro rfl; exact hx ha
          rw [he] at hi ⊢
          have := hi.2 hxs
          simp; omega
  exact (key _ ts rfl).2 hd

example : ¬ ([1, 2, 1] : List Nat).Nodup ∧ ofList 4 0 [1, 2, 1] = some (⟨[1, 2, 1, 0], 3⟩ : Buf Nat) := by
  decide

end Verif.CxSet
