import Verif.Refs.Model
import Verif.CxVector.Props
import Verif.CxSet.Props
import Verif.CxMap.Props

namespace Verif.Refs

open Verif.Buf

variable {α κ ν : Type}

theorem arrSet_eq_ok {st st' : List α} {i : Nat} {x : α} (h : arrSet st i x = .ok st') : i < st.length ∧ st' = st.set i x := by
  unfold arrSet at h
  split at h
  · rename_i hl; simp at h; exact ⟨hl, h.symm⟩
  · simp at h

theorem scanRef_eq {same : α → α → Bool} {st : List α} {j : Nat} {y : α} (h : arrGet st j = .ok y) (n : Nat) :
    ∀ i, scanRef same st j i n = scan (fun x => same x y) st i n := by
  induction n with
  | zero => intro i; rfl
  | succ n ih =>
    intro i
    simp only [scanRef, scan]
    cases arrGet st i with
    | ok x => simp only [Outcome.ok_bind, h, ih]
    | ub => rfl
    | panic => rfl

theorem updateLoop_aux (f : α → α) : ∀ (n : Nat) (pre mid suf : List α), mid.length = n →
    updateLoop f (pre ++ mid ++ suf) pre.length n = .ok (pre ++ mid.map f ++ suf) := by
  intro n
  induction n with
  | zero => intro pre mid suf h; simp at h; subst h; simp [updateLoop]
  | succ n ih =>
    intro pre mid suf h
    cases mid with
    | nil => simp at h
    | cons x mid =>
      have hg : arrGet (pre ++ (x :: mid) ++ suf) pre.length = .ok x := by rw [arrGet_ok]; simp
      have hs : arrSet (pre ++ (x :: mid) ++ suf) pre.length (f x) = .ok ((pre ++ [f x]) ++ mid ++ suf) := by
        rw [arrSet_of_lt (by simp)]; simp
      have := ih (pre ++ [f x]) mid suf (by simpa using h)
      rw [List.length_append, List.length_singleton] at this
      simp only [updateLoop, hg, hs, Outcome.ok_bind, this]
      simp

theorem update_rep {N : Nat} {b : Buf α} {l : List α} (h : Rep N b l) (f : α → α) :
    ∃ b', update f b = .ok b' ∧ Rep N b' (l.map f) := by
  obtain ⟨hc, hs, st, he⟩ := h
  have := updateLoop_aux f l.length [] l st rfl
  simp only [List.nil_append, List.length_nil] at this
  refine ⟨⟨l.map f ++ st, b.size⟩, ?_, ?_, ?_, st, rfl⟩
  · unfold update; rw [hs, he, this]; rfl
  · rw [← hc, he]; simp
  · simpa using hs

/-- Where the first hit is. -/
theorem scan_some {p : α → Bool} {st : List α} {n : Nat} : ∀ {i r : Nat}, scan p st i n = .ok (some r) →
    i ≤ r ∧ r < i + n ∧ ∃ x, st[r]? = some x ∧ p x = true := by
  induction n with
  | zero => intro i r h; simp [scan] at h
  | succ n ih =>
    intro i r h
    simp only [scan] at h
    cases hx : arrGet st i with
    | ub => rw [hx] at h; simp at h
    | panic => rw [hx] at h; simp at h
    | ok x =>
      rw [hx] at h
      simp only [Outcome.ok_bind] at h
      split at h
      · rename_i hp; simp at h; subst h; exact ⟨by omega, by omega, x, arrGet_ok.mp hx, hp⟩
      · have := ih h; exact ⟨by omega, by omega, this.2.2⟩

theorem find_some' {p : α → Bool} {b : Buf α} {r : Nat} (h : find p b = .ok (some r)) :
    r < b.size ∧ ∃ x, b.storage[r]? = some x ∧ p x = true := by
  have := scan_some h; exact ⟨by omega, this.2.2⟩

section
variable [DecidableEq κ]

theorem map_run_mrep {N : Nat} (hN : N < szMod) (ops : List (CxMap.Op κ ν)) : ∀ {b b' : Buf (κ × ν)} {m : CxMap.Abs κ ν}
    {rs : List (CxMap.Out κ ν)}, CxMap.MRep N b m → CxMap.run N b ops = .ok (b', rs) → ∃ m', CxMap.MRep N b' m' := by
  induction ops with
  | nil => intro b b' m rs h e; simp [CxMap.run] at e; exact ⟨m, e.1 ▸ h⟩
  | cons o os ih =>
    intro b b' m rs h e
    simp only [CxMap.run] at e
    obtain ⟨⟨b1, r⟩, e1, e2⟩ := Outcome.bind_eq_ok.mp e
    obtain ⟨⟨b2, rs2⟩, e3, e4⟩ := Outcome.bind_eq_ok.mp e2
    simp at e4
    have hp : CxMap.Pre N m o := by
      apply Classical.byContradiction
      intro hp
      have := (CxMap.C28_cx_map_ub_iff N hN b m h o).mpr hp
      rw [this] at e1; simp at e1
    obtain ⟨b1', m1, r1, e5, _, h1⟩ := CxMap.step_refines hN h o hp
    rw [e5] at e1; simp at e1
    obtain ⟨rfl, rfl⟩ := e1
    exact e4.1 ▸ ih h1 e3

/-- The key in a slot stays, if it is not erased. -/
theorem map_step_slot {N : Nat} {b b' : Buf (κ × ν)} {o : CxMap.Op κ ν} {r : CxMap.Out κ ν} {i : Nat} {k : κ} {v : ν}
    (hi : i < b.size) (hs : b.storage[i]? = some (k, v)) (ho : ∀ k', o = .erase k' → k' ≠ k)
    (e : CxMap.step N b o = .ok (b', r)) : ∃ v', b'.storage[i]? = some (k, v') := by
  have setAt : ∀ {f : Nat} {e0 : κ × ν} {w : ν} {st : List (κ × ν)}, b.storage[f]? = some e0 →
      arrSet b.storage f (e0.1, w) = .ok st → ∃ v', st[i]? = some (k, v') := by
    intro f e0 w st h0 h1
    obtain ⟨hl, rfl⟩ := arrSet_eq_ok h1
    by_cases hf : f = i
    · subst hf
      rw [hs] at h0; simp at h0; subst h0
      exact ⟨w, by simp [List.getElem?_set, hl]⟩
    · exact ⟨v, by simp [List.getElem?_set, hf, hs]⟩
  cases o with
  | put k' w =>
    simp only [CxMap.step] at e
    obtain ⟨⟨b1, x⟩, e1, e2⟩ := Outcome.bind_eq_ok.mp e
    simp at e2
    rw [← e2.1]
    unfold CxMap.insertOrAssign at e1
    obtain ⟨fo, ef, e3⟩ := Outcome.bind_eq_ok.mp e1
    cases fo with
    | none =>
      simp only [append] at e3
      obtain ⟨b2, e4, e5⟩ := Outcome.bind_eq_ok.mp e3
      obtain ⟨st, e6, e7⟩ := Outcome.bind_eq_ok.mp e4
      obtain ⟨hl, rfl⟩ := arrSet_eq_ok e6
      simp at e5 e7
      rw [← e5.1, ← e7]
      refine ⟨v, ?_⟩
      simp only [List.getElem?_set]
      rw [if_neg (by omega), hs]
    | some f =>
      simp only at e3
      obtain ⟨e0, e4, e5⟩ := Outcome.bind_eq_ok.mp e3
      obtain ⟨st, e6, e7⟩ := Outcome.bind_eq_ok.mp e5
      simp at e7
      rw [← e7.1]
      exact setAt (arrGet_ok.mp e4) e6
  | erase k' =>
    simp only [CxMap.step, CxMap.erase, eraseIf] at e
    obtain ⟨⟨b1, x⟩, e1, e2⟩ := Outcome.bind_eq_ok.mp e
    simp at e2
    rw [← e2.1]
    obtain ⟨fo, ef, e3⟩ := Outcome.bind_eq_ok.mp e1
    cases fo with
    | none => simp at e3; rw [← e3.1]; exact ⟨v, hs⟩
    | some f =>
      obtain ⟨hf, y, hy, hp⟩ := find_some' ef
      simp only at e3
      obtain ⟨e0, e4, e5⟩ := Outcome.bind_eq_ok.mp e3
      obtain ⟨st, e6, e7⟩ := Outcome.bind_eq_ok.mp e5
      simp at e7
      rw [← e7.1]
      obtain ⟨hl, rfl⟩ := arrSet_eq_ok e6
      have hfi : f ≠ i := by
        rintro rfl
        rw [hs] at hy; simp at hy; subst hy
        simp at hp
        exact ho k' rfl hp.symm
      exact ⟨v, by simp [List.getElem?_set, hfi, hs]⟩
  | popBack =>
    simp only [CxMap.step, Buf.popBack] at e
    obtain ⟨⟨b1, x⟩, e1, e2⟩ := Outcome.bind_eq_ok.mp e
    obtain ⟨y, e3, e4⟩ := Outcome.bind_eq_ok.mp e1
    simp at e2 e4
    rw [← e2.1, ← e4.1]; exact ⟨v, hs⟩
  | clear => simp [CxMap.step] at e; rw [← e.1]; exact ⟨v, hs⟩
  | contains k' =>
    simp only [CxMap.step] at e
    obtain ⟨x, _, e2⟩ := Outcome.bind_eq_ok.mp e
    simp at e2; rw [← e2.1]; exact ⟨v, hs⟩
  | get k' =>
    simp only [CxMap.step] at e
    obtain ⟨x, _, e2⟩ := Outcome.bind_eq_ok.mp e
    simp at e2; rw [← e2.1]; exact ⟨v, hs⟩
  | assignGet k' w =>
    simp only [CxMap.step] at e
    obtain ⟨b1, e1, e2⟩ := Outcome.bind_eq_ok.mp e
    simp at e2
    rw [← e2.1]
    unfold CxMap.assignGet at e1
    obtain ⟨fo, ef, e3⟩ := Outcome.bind_eq_ok.mp e1
    cases fo with
    | none => simp at e3
    | some f =>
      simp only at e3
      obtain ⟨e0, e4, e5⟩ := Outcome.bind_eq_ok.mp e3
      obtain ⟨st, e6, e7⟩ := Outcome.bind_eq_ok.mp e5
      simp at e7
      rw [← e7]
      exact setAt (arrGet_ok.mp e4) e6
  | size => simp [CxMap.step] at e; rw [← e.1]; exact ⟨v, hs⟩
  | empty => simp [CxMap.step] at e; rw [← e.1]; exact ⟨v, hs⟩
  | full => simp [CxMap.step] at e; rw [← e.1]; exact ⟨v, hs⟩
  | iterate =>
    simp only [CxMap.step] at e
    obtain ⟨x, _, e2⟩ := Outcome.bind_eq_ok.mp e
    simp at e2; rw [← e2.1]; exact ⟨v, hs⟩

/-- What is in the slot of a key of a represented map. -/
theorem mrep_slot {N : Nat} {b : Buf (κ × ν)} {m : CxMap.Abs κ ν} (h : CxMap.MRep N b m) {i : Nat} {k : κ} {v : ν}
    (hi : i < b.size) (hs : b.storage[i]? = some (k, v)) :
    m.fn k = some v ∧ find (fun e => e.1 == k) b = .ok (some i) ∧ i < b.storage.length := by
  obtain ⟨l, hr, hn, hm, hc⟩ := h
  have hil : i < l.length := hr.size ▸ hi
  have hg := hr.get hil
  rw [arrGet_ok, hs] at hg
  simp at hg
  have hmem : (k, v) ∈ l := hg ▸ List.getElem_mem hil
  obtain ⟨i', hi', hf, he⟩ := CxMap.find_some hn hmem
  have : i' = i := by
    have := List.getElem_inj (i := i') (j := i) (h₀ := by simpa using hi') (h₁ := by simpa using hil) hn
    apply this.mp
    simp [he, ← hg]
  subst this
  exact ⟨(hm k v).mpr hmem, by rw [hr.find, hf], by have := hr.le; rw [hr.cap]; omega⟩

end

end Verif.Refs
