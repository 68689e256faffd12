import Verif.CxSet.Spec
import Verif.Buf.Lemmas

namespace Verif.CxSet

open Verif.Buf

variable {α : Type} [DecidableEq α]

/-- The buffer `b` represents the set `s`. -/
def SRep {α : Type} (N : Nat) (b : Buf α) (s : Abs α) : Prop :=
  ∃ l, Rep N b l ∧ l.Nodup ∧ (∀ x, s.mem x ↔ x ∈ l) ∧ s.card = l.length

theorem contains_rep {N : Nat} {b : Buf α} {l : List α} (h : Rep N b l) (k : α) :
    contains b k = .ok (decide (k ∈ l)) := by
  unfold contains
  rw [h.find]
  by_cases hk : k ∈ l
  · simp [hk, List.findIdx?_isSome]
  · have : l.findIdx? (fun x => x == k) = none := by
      rw [List.findIdx?_eq_none_iff]; intro x hx; simp; rintro rfl; exact hk hx
    simp [hk, this]

theorem insert_rep {N : Nat} {b : Buf α} {l : List α} (hN : N < szMod) (h : Rep N b l)
    (k : α) (hr : k ∈ l ∨ l.length < N) :
    ∃ b' l', insert b k = .ok (b', decide (k ∉ l)) ∧ Rep N b' l' ∧
      l' = if k ∈ l then l else l ++ [k] := by
  unfold insert
  rw [contains_rep h]
  by_cases hk : k ∈ l
  · exact ⟨b, l, by simp [hk], h, by simp [hk]⟩
  · obtain ⟨b', e, hb⟩ := h.append hN (by simpa [hk] using hr) k
    exact ⟨b', l ++ [k], by simp [hk, e], hb, by simp [hk]⟩

theorem merge_rep {N : Nat} (hN : N < szMod) (xs : List α) :
    ∀ {b : Buf α} {l : List α}, Rep N b l → l.Nodup →
      (∀ ys : List α, ys.Nodup → (∀ y ∈ ys, y ∈ xs ∧ y ∉ l) → l.length + ys.length ≤ N) →
      ∃ b' ys, merge b xs = .ok b' ∧ Rep N b' (l ++ ys) ∧ (l ++ ys).Nodup ∧
        (∀ y, y ∈ ys ↔ y ∈ xs ∧ y ∉ l) := by
  induction xs with
  | nil => intro b l h hn _; exact ⟨b, [], rfl, by simpa using h, by simpa using hn, by simp⟩
  | cons x xs ih =>
    intro b l h hn hroom
    by_cases hx : x ∈ l
    · obtain ⟨b1, l1, e1, h1, hl1⟩ := insert_rep hN h x (.inl hx)
      simp only [hx, ↓reduceIte] at hl1
      subst hl1
      obtain ⟨b2, ys, e2, h2, hn2, hy⟩ := ih h1 hn (fun ys hy hm => hroom ys hy (fun y hy' =>
        ⟨List.mem_cons_of_mem _ (hm y hy').1, (hm y hy').2⟩))
      refine ⟨b2, ys, by simp [merge, e1, e2], h2, hn2, fun y => ?_⟩
      rw [hy]; simp; grind
    · have hlt : l.length < N := by
        have := hroom [x] (by simp) (by simp [hx]); simp at this; omega
      obtain ⟨b1, l1, e1, h1, hl1⟩ := insert_rep hN h x (.inr hlt)
      simp only [hx, ↓reduceIte] at hl1
      subst hl1
      have hn1 : (l ++ [x]).Nodup := by
        rw [List.nodup_append]; simp [hn]; grind
      obtain ⟨b2, ys, e2, h2, hn2, hy⟩ := ih h1 hn1 (fun ys hy hm => by
        have := hroom (x :: ys) (by grind) (by grind)
        simp at this ⊢; omega)
      refine ⟨b2, x :: ys, by simp [merge, e1, e2], by simpa using h2, by simpa using hn2,
        fun y => ?_⟩
      simp [hy]; grind

theorem erase_rep {N : Nat} {b : Buf α} {l : List α} (h : Rep N b l) (hn : l.Nodup) (k : α) :
    ∃ b' l', erase b k = .ok (b', if k ∈ l then 1 else 0) ∧ Rep N b' l' ∧ l'.Nodup ∧
      (∀ x, x ∈ l' ↔ x ≠ k ∧ x ∈ l) ∧ l.length = l'.length + (if k ∈ l then 1 else 0) := by
  unfold erase
  by_cases hk : k ∈ l
  · have hne : l ≠ [] := by rintro rfl; simp at hk
    have hs : (l.findIdx? (fun x => x == k)).isSome := by simp [List.findIdx?_isSome, hk]
    obtain ⟨i, hi⟩ := Option.isSome_iff_exists.mp hs
    obtain ⟨b', e, hb⟩ := h.eraseIf_some hi hne
    have hii := List.findIdx?_eq_some_iff_getElem.mp hi
    have hlk : l[i]'hii.1 = k := by simpa using hii.2.1
    have hperm := Rep.swapErase_perm hne hii.1
    rw [hlk] at hperm
    have hnd := hperm.nodup_iff.mpr hn
    rw [List.nodup_cons] at hnd
    refine ⟨b', _, by simp [hk, e], hb, hnd.2, fun x => ?_, ?_⟩
    · have := hperm.mem_iff (a := x)
      rw [← this]; simp; grind
    · have := hperm.length_eq
      simp at this; simp [hk]; omega
  · have := h.eraseIf_none (p := fun x => x == k) (by intro x hx; simp; rintro rfl; exact hk hx)
    refine ⟨b, l, by simp [hk, this], h, hn, fun x => ?_, by simp [hk]⟩
    grind

theorem step_refines {N : Nat} {b : Buf α} {s : Abs α} (hN : N < szMod)
    (h : SRep N b s) (o : Op α) (hp : Pre N s o) :
    ∃ b' s' r, step b o = .ok (b', r) ∧ Post s o s' r ∧ SRep N b' s' := by
  obtain ⟨l, hr, hn, hm, hc⟩ := h
  cases o with
  | insert k =>
    have hp' : k ∈ l ∨ l.length < N := by
      rcases hp with hp | hp
      · exact .inl ((hm k).mp hp)
      · exact .inr (hc ▸ hp)
    obtain ⟨b', l', e, hb, hl'⟩ := insert_rep hN hr k hp'
    refine ⟨b', ⟨(· ∈ l'), l'.length⟩, .bool (decide (k ∉ l)), by simp [step, e],
      ⟨?_, ?_, ?_⟩, l', hb, ?_, fun _ => Iff.rfl, rfl⟩
    · intro x; simp only [hm, hl']; split <;> simp <;> grind
    · intro hk; rw [hm] at hk; simp [hl', hk, hc]
    · intro hk; rw [hm] at hk; simp [hl', hk, hc]
    · rw [hl']; split
      · exact hn
      · rw [List.nodup_append]; simp [hn]; grind
  | erase k =>
    obtain ⟨b', l', e, hb, hn', hm', hlen⟩ := erase_rep hr hn k
    refine ⟨b', ⟨(· ∈ l'), l'.length⟩, .nat (if k ∈ l then 1 else 0), by simp [step, e],
      ⟨?_, ?_, ?_⟩, l', hb, hn', fun _ => Iff.rfl, rfl⟩
    · intro x; simp only [hm, hm']
    · intro hk; rw [hm] at hk; simp [hk, hc] at hlen ⊢; omega
    · intro hk; rw [hm] at hk; simp [hk, hc] at hlen ⊢; omega
  | merge xs =>
    obtain ⟨b', ys, e, hb, hn', hy⟩ := merge_rep hN xs hr hn (fun ys hy hmem => by
      rw [← hc]; exact hp ys hy (fun y h => by rw [hm]; exact hmem y h))
    refine ⟨b', ⟨(· ∈ l ++ ys), (l ++ ys).length⟩, .unit, by simp [step, e],
      ⟨?_, rfl, ys, ?_, ?_, ?_⟩, _, hb, hn', fun _ => Iff.rfl, rfl⟩
    · intro x; simp [hm, hy]; grind
    · exact (List.nodup_append.mp hn').2.1
    · intro y; rw [hy, hm]
    · simp [hc]
  | popBack =>
    have hne : l ≠ [] := by rintro rfl; exact hp hc
    have hl : l = l.dropLast ++ [l.getLast hne] := (List.dropLast_concat_getLast hne).symm
    generalize l.getLast hne = k at hl
    generalize l.dropLast = l' at hl
    subst hl
    obtain ⟨b', e, hb⟩ := hr.popBack
    rw [List.nodup_append] at hn
    refine ⟨b', ⟨(· ∈ l'), l'.length⟩, .val k, by simp [step, e],
      ⟨k, ?_, ?_, ?_, rfl⟩, l', hb, hn.1, fun _ => Iff.rfl, rfl⟩
    · rw [hm]; simp
    · intro x; simp [hm]; grind
    · simp [hc]
  | clear =>
    exact ⟨_, ⟨fun _ => False, 0⟩, .unit, rfl, ⟨fun _ h => h, rfl, rfl⟩, [], hr.clear,
      List.nodup_nil, by simp, rfl⟩
  | contains k =>
    exact ⟨b, s, .bool (decide (k ∈ l)), by simp [step, contains_rep hr],
      ⟨rfl, _, rfl, by simp [hm]⟩, l, hr, hn, hm, hc⟩
  | size => exact ⟨b, s, .nat b.size, rfl, ⟨rfl, by rw [hr.size, hc]⟩, l, hr, hn, hm, hc⟩
  | empty =>
    refine ⟨b, s, .bool (b.size == 0), rfl, ⟨rfl, _, rfl, ?_⟩, l, hr, hn, hm, hc⟩
    rw [hr.size]; simp only [hm]; cases l with
    | nil => simp
    | cons a as => simp; exact ⟨a, fun h => absurd rfl h⟩
  | iterate =>
    exact ⟨b, s, .list l, by simp [step, hr.elems], ⟨rfl, l, rfl, hn, fun x => (hm x).symm,
      hc.symm⟩, l, hr, hn, hm, hc⟩

theorem run_refines {N : Nat} (hN : N < szMod) (ops : List (Op α)) :
    ∀ {b : Buf α} {s : Abs α}, SRep N b s → Admissible N s ops →
      ∃ b' s' rs, run b ops = .ok (b', rs) ∧ SpecRun s ops s' rs ∧ SRep N b' s' := by
  induction ops with
  | nil => intro b s h _; exact ⟨b, s, [], rfl, ⟨rfl, rfl⟩, h⟩
  | cons o os ih =>
    intro b s h ha
    obtain ⟨b1, s1, r, e1, hpost, hr1⟩ := step_refines hN h o ha.1
    obtain ⟨b2, s2, rs, e2, hrun, hr2⟩ := ih hr1 (ha.2 s1 r hpost)
    exact ⟨b2, s2, r :: rs, by simp [run, e1, e2], ⟨s1, r, rs, hpost, hrun, rfl⟩, hr2⟩

end Verif.CxSet
