import Verif.CxMap.Spec
import Verif.Buf.Lemmas

namespace Verif.CxMap

open Verif.Buf

variable {κ ν : Type} [DecidableEq κ]

/-- The buffer `b` represents the map `m`. -/
def MRep (N : Nat) (b : Buf (κ × ν)) (m : Abs κ ν) : Prop :=
  ∃ l, Rep N b l ∧ (l.map Prod.fst).Nodup ∧ (∀ k v, m.fn k = some v ↔ (k, v) ∈ l) ∧
    m.card = l.length

omit [DecidableEq κ] in
theorem key_mem {l : List (κ × ν)} {m : Abs κ ν} (hm : ∀ k v, m.fn k = some v ↔ (k, v) ∈ l)
    (k : κ) : m.fn k ≠ none ↔ ∃ v, (k, v) ∈ l := by
  rw [Option.ne_none_iff_exists']; simp [hm]

theorem find_some {l : List (κ × ν)} {k : κ} {v : ν} (hn : (l.map Prod.fst).Nodup)
    (h : (k, v) ∈ l) : ∃ i, ∃ hi : i < l.length, l.findIdx? (fun e => e.1 == k) = some i ∧
      l[i] = (k, v) := by
  have hs : (l.findIdx? (fun e => e.1 == k)).isSome := by
    rw [List.findIdx?_isSome]; simp; exact ⟨v, h⟩
  obtain ⟨i, hi⟩ := Option.isSome_iff_exists.mp hs
  obtain ⟨hlt, hk, _⟩ := List.findIdx?_eq_some_iff_getElem.mp hi
  refine ⟨i, hlt, hi, ?_⟩
  simp at hk
  obtain ⟨j, hj, hje⟩ := List.mem_iff_getElem.mp h
  have : i = j := by
    have := List.getElem_inj (i := i) (j := j) (h₀ := by simpa using hlt)
      (h₁ := by simpa using hj) hn
    apply this.mp
    simp [hk, hje]
  subst this
  exact hje

theorem find_none {l : List (κ × ν)} {k : κ} (h : ¬ ∃ v, (k, v) ∈ l) :
    l.findIdx? (fun e => e.1 == k) = none := by
  rw [List.findIdx?_eq_none_iff]
  rintro ⟨a, v⟩ hx; simp; rintro rfl; exact h ⟨v, hx⟩

omit [DecidableEq κ] in
theorem unique_val {l : List (κ × ν)} {k : κ} {v w : ν} (hn : (l.map Prod.fst).Nodup)
    (h : (k, v) ∈ l) (h' : (k, w) ∈ l) : v = w := by
  obtain ⟨i, hi, e1⟩ := List.mem_iff_getElem.mp h
  obtain ⟨j, hj, e2⟩ := List.mem_iff_getElem.mp h'
  have : i = j := by
    have := List.getElem_inj (i := i) (j := j) (h₀ := by simpa using hi)
      (h₁ := by simpa using hj) hn
    apply this.mp
    simp [e1, e2]
  subst this
  rw [e1] at e2; simpa using e2

/-- Replacing the value at the position of `k`. -/
theorem set_mem {l : List (κ × ν)} {i : Nat} {k : κ} {v w : ν} (hn : (l.map Prod.fst).Nodup)
    (hi : i < l.length) (he : l[i] = (k, w)) :
    ((l.set i (k, v)).map Prod.fst).Nodup ∧
      ∀ k' v', (k', v') ∈ l.set i (k, v) ↔ (k' = k ∧ v' = v) ∨ (k' ≠ k ∧ (k', v') ∈ l) := by
  constructor
  · have : (l.set i (k, v)).map Prod.fst = l.map Prod.fst := by
      rw [List.map_set]
      have hh : (l.map Prod.fst)[i]'(by simpa using hi) = k := by simp [he]
      conv => rhs; rw [← List.set_getElem_self (as := l.map Prod.fst) (i := i) (by simpa using hi)]
      rw [hh]
    rw [this]; exact hn
  · intro k' v'
    rw [List.mem_iff_getElem]
    constructor
    · rintro ⟨j, hj, e⟩
      rw [List.getElem_set] at e
      split at e
      · left; simp at e; exact ⟨e.1.symm, e.2.symm⟩
      · rename_i hne
        right
        simp at hj
        refine ⟨?_, e ▸ List.getElem_mem _⟩
        rintro rfl
        apply hne
        have := List.getElem_inj (i := i) (j := j) (h₀ := by simpa using hi)
          (h₁ := by simpa using hj) hn
        apply this.mp
        simp [he, e]
    · rintro (⟨rfl, rfl⟩ | ⟨hne, hmem⟩)
      · exact ⟨i, by simpa using hi, by simp⟩
      · obtain ⟨j, hj, e⟩ := List.mem_iff_getElem.mp hmem
        refine ⟨j, by simpa using hj, ?_⟩
        rw [List.getElem_set]
        split
        · rename_i hij; subst hij; rw [he] at e; simp at e; exact absurd e.1.symm hne
        · exact e

theorem contains_rep {N : Nat} {b : Buf (κ × ν)} {m : Abs κ ν} (h : MRep N b m) (k : κ) :
    contains b k = .ok (m.fn k).isSome := by
  obtain ⟨l, hr, hn, hm, hc⟩ := h
  unfold contains
  rw [hr.find]
  cases hk : m.fn k with
  | none =>
    have := (not_congr (key_mem hm k)).mp (by simp [hk])
    simp [find_none this]
  | some v =>
    obtain ⟨i, hi, e, _⟩ := find_some hn ((hm k v).mp hk)
    simp [e]

theorem get_rep {N : Nat} {b : Buf (κ × ν)} {m : Abs κ ν} (h : MRep N b m) (k : κ) :
    get b k = match m.fn k with | some v => .ok v | none => .ub := by
  obtain ⟨l, hr, hn, hm, hc⟩ := h
  unfold get
  rw [hr.find]
  cases hk : m.fn k with
  | none =>
    have := (not_congr (key_mem hm k)).mp (by simp [hk])
    simp [find_none this]
  | some v =>
    obtain ⟨i, hi, e, he⟩ := find_some hn ((hm k v).mp hk)
    simp [e, hr.get hi, he]

/-- Update of one key. -/
def upd (f : κ → Option ν) (k : κ) (o : Option ν) : κ → Option ν :=
  fun x => if x = k then o else f x

theorem assign_rep {N : Nat} {b : Buf (κ × ν)} {m : Abs κ ν} (h : MRep N b m) (k : κ) (v : ν)
    (hk : m.fn k ≠ none) :
    ∃ b', assignGet b k v = .ok b' ∧ insertOrAssign b k v = .ok (b', false) ∧
      MRep N b' ⟨upd m.fn k (some v), m.card⟩ := by
  obtain ⟨l, hr, hn, hm, hc⟩ := h
  obtain ⟨w, hw⟩ := (key_mem hm k).mp hk
  obtain ⟨i, hi, e, he⟩ := find_some hn hw
  obtain ⟨e2, hr2⟩ := hr.set hi (k, v)
  have hg := hr.get hi
  rw [he] at hg
  refine ⟨⟨b.storage.set i (k, v), b.size⟩, ?_, ?_, _, hr2, (set_mem (v := v) hn hi he).1, ?_, ?_⟩
  · simp [assignGet, hr.find, e, hg, e2]
  · simp [insertOrAssign, hr.find, e, hg, e2]
  · intro k' v'
    rw [(set_mem (v := v) hn hi he).2]
    simp only [upd]
    split
    · rename_i hh; subst hh; simp; exact eq_comm
    · rename_i hh; rw [hm]; simp [hh]
  · simp [hc]

theorem insert_rep {N : Nat} {b : Buf (κ × ν)} {m : Abs κ ν} (hN : N < szMod) (h : MRep N b m)
    (k : κ) (v : ν) (hk : m.fn k = none) (hr : m.card < N) :
    ∃ b', insertOrAssign b k v = .ok (b', true) ∧
      MRep N b' ⟨upd m.fn k (some v), m.card + 1⟩ := by
  obtain ⟨l, hb, hn, hm, hc⟩ := h
  have hno := (not_congr (key_mem hm k)).mp (by simp [hk])
  obtain ⟨b', e, hb'⟩ := hb.append hN (hc ▸ hr) (k, v)
  refine ⟨b', by simp [insertOrAssign, hb.find, find_none hno, e], _, hb', ?_, ?_, ?_⟩
  · rw [List.map_append, List.nodup_append]
    refine ⟨hn, by simp, ?_⟩
    intro a ha b hb hab
    simp at ha hb
    subst hb; subst hab
    exact hno ha
  · intro k' v'
    simp only [upd, List.mem_append, List.mem_singleton, Prod.mk.injEq]
    split
    · rename_i hh; subst hh
      simp
      constructor
      · intro h; right; exact h.symm
      · rintro (h | h)
        · exact absurd ⟨_, h⟩ hno
        · exact h.symm
    · rename_i hh; rw [hm]; simp [hh]
  · simp [hc]

theorem erase_rep {N : Nat} {b : Buf (κ × ν)} {m : Abs κ ν} (h : MRep N b m) (k : κ) :
    (m.fn k = none → erase b k = .ok (b, 0)) ∧
    (m.fn k ≠ none → ∃ b' n, erase b k = .ok (b', 1) ∧ m.card = n + 1 ∧
      MRep N b' ⟨upd m.fn k none, n⟩) := by
  obtain ⟨l, hr, hn, hm, hc⟩ := h
  constructor
  · intro hk
    have hno := (not_congr (key_mem hm k)).mp (by simp [hk])
    apply hr.eraseIf_none
    rintro ⟨a, v⟩ hx; simp; rintro rfl; exact hno ⟨v, hx⟩
  · intro hk
    obtain ⟨w, hw⟩ := (key_mem hm k).mp hk
    obtain ⟨i, hi, e, he⟩ := find_some hn hw
    have hne : l ≠ [] := by rintro rfl; simp at hw
    obtain ⟨b', e', hb'⟩ := hr.eraseIf_some e hne
    have hp := Rep.swapErase_perm hne hi
    rw [he] at hp
    have hnd := (hp.map Prod.fst).nodup_iff.mpr hn
    simp only [List.map_cons, List.nodup_cons] at hnd
    refine ⟨b', (Rep.swapErase l i hne).length, e', ?_, _, hb', hnd.2, ?_, rfl⟩
    · rw [hc, ← hp.length_eq]; simp
    · intro k' v'
      simp only [upd]
      split
      · rename_i hh; subst hh
        simp
        intro hmem
        exact hnd.1 (List.mem_map.mpr ⟨_, hmem, rfl⟩)
      · rename_i hh
        rw [hm, ← hp.mem_iff]; simp [hh]

theorem popBack_rep {N : Nat} {b : Buf (κ × ν)} {m : Abs κ ν} (h : MRep N b m)
    (hne : m.card ≠ 0) : ∃ b' n k v, popBack b = .ok (b', (k, v)) ∧ m.card = n + 1 ∧
      m.fn k = some v ∧ MRep N b' ⟨upd m.fn k none, n⟩ := by
  obtain ⟨l, hr, hn, hm, hc⟩ := h
  have hne : l ≠ [] := by rintro rfl; exact hne hc
  have hl : l = l.dropLast ++ [l.getLast hne] := (List.dropLast_concat_getLast hne).symm
  generalize l.getLast hne = kv at hl
  generalize l.dropLast = l' at hl
  obtain ⟨k, v⟩ := kv
  subst hl
  obtain ⟨b', e, hb⟩ := hr.popBack
  rw [List.map_append, List.nodup_append] at hn
  refine ⟨b', l'.length, k, v, e, by simp [hc], by rw [hm]; simp, l', hb, hn.1, ?_, rfl⟩
  intro k' v'
  have hkn : ∀ v, (k, v) ∉ l' := by
    intro v hv
    exact hn.2.2 k (List.mem_map.mpr ⟨_, hv, rfl⟩) k (by simp) rfl
  simp only [upd]
  split
  · rename_i hh; subst hh; simp [hkn]
  · rename_i hh; rw [hm]; simp [hh]

theorem step_refines {N : Nat} {b : Buf (κ × ν)} {m : Abs κ ν} (hN : N < szMod)
    (h : MRep N b m) (o : Op κ ν) (hp : Pre N m o) :
    ∃ b' m' r, step N b o = .ok (b', r) ∧ Post N m o m' r ∧ MRep N b' m' := by
  cases o with
  | put k v =>
    by_cases hk : m.fn k = none
    · obtain ⟨b', e, hb⟩ := insert_rep hN h k v hk (by
        rcases hp with hp | hp
        · exact absurd hk hp
        · exact hp)
      exact ⟨b', _, .bool true, by simp [step, e], ⟨by simp [upd], by intro x hx; simp [upd, hx],
        fun h => absurd hk h, fun _ => ⟨rfl, rfl⟩⟩, hb⟩
    · obtain ⟨b', _, e, hb⟩ := assign_rep h k v hk
      exact ⟨b', ⟨upd m.fn k (some v), m.card⟩, .bool false, by simp [step, e], ⟨by simp [upd], by intro x hx; simp [upd, hx],
        fun _ => ⟨rfl, rfl⟩, fun h => absurd h hk⟩, hb⟩
  | erase k =>
    by_cases hk : m.fn k = none
    · have e := (erase_rep h k).1 hk
      exact ⟨b, m, .nat 0, by simp [step, e], ⟨hk, by simp, fun h => absurd hk h,
        fun _ => ⟨rfl, rfl⟩⟩, h⟩
    · obtain ⟨b', n, e, hc, hb⟩ := (erase_rep h k).2 hk
      exact ⟨b', _, .nat 1, by simp [step, e], ⟨by simp [upd], by intro x hx; simp [upd, hx],
        fun _ => ⟨hc.symm, rfl⟩, fun h => absurd h hk⟩, hb⟩
  | popBack =>
    obtain ⟨b', n, k, v, e, hc, hk, hb⟩ := popBack_rep h hp
    exact ⟨b', _, .pair k v, by simp [step, e], ⟨k, v, hk, by simp [upd],
      by intro x hx; simp [upd, hx], hc.symm, rfl⟩, hb⟩
  | clear =>
    obtain ⟨l, hr, hn, hm, hc⟩ := h
    exact ⟨_, Abs.empty, .unit, rfl, ⟨fun _ => rfl, rfl, rfl⟩, [], hr.clear, by simp,
      by simp [Abs.empty], rfl⟩
  | contains k => exact ⟨b, m, _, by simp [step, contains_rep h], ⟨rfl, rfl⟩, h⟩
  | get k =>
    obtain ⟨v, hv⟩ := Option.ne_none_iff_exists'.mp hp
    exact ⟨b, m, .val v, by simp [step, get_rep h, hv], ⟨rfl, v, hv, rfl⟩, h⟩
  | assignGet k v =>
    obtain ⟨b', e, _, hb⟩ := assign_rep h k v hp
    exact ⟨b', ⟨upd m.fn k (some v), m.card⟩, .unit, by simp [step, e], ⟨by simp [upd], by intro x hx; simp [upd, hx],
      rfl, rfl⟩, hb⟩
  | size =>
    obtain ⟨l, hr, hn, hm, hc⟩ := h
    exact ⟨b, m, _, rfl, ⟨rfl, by rw [hr.size, hc]⟩, l, hr, hn, hm, hc⟩
  | empty =>
    obtain ⟨l, hr, hn, hm, hc⟩ := h
    exact ⟨b, m, _, rfl, ⟨rfl, by rw [hr.size, hc]; rfl⟩, l, hr, hn, hm, hc⟩
  | full =>
    obtain ⟨l, hr, hn, hm, hc⟩ := h
    exact ⟨b, m, _, rfl, ⟨rfl, by rw [hr.size, hc]; rfl⟩, l, hr, hn, hm, hc⟩
  | iterate =>
    obtain ⟨l, hr, hn, hm, hc⟩ := h
    exact ⟨b, m, .list l, by simp [step, hr.elems], ⟨rfl, l, rfl, hn,
      fun k v => (hm k v).symm, hc.symm⟩, l, hr, hn, hm, hc⟩

theorem run_refines {N : Nat} (hN : N < szMod) (ops : List (Op κ ν)) :
    ∀ {b : Buf (κ × ν)} {m : Abs κ ν}, MRep N b m → Admissible N m ops →
      ∃ b' m' rs, run N b ops = .ok (b', rs) ∧ SpecRun N m ops m' rs ∧ MRep N b' m' := by
  induction ops with
  | nil => intro b m h _; exact ⟨b, m, [], rfl, ⟨rfl, rfl⟩, h⟩
  | cons o os ih =>
    intro b m h ha
    obtain ⟨b1, m1, r, e1, hpost, hr1⟩ := step_refines hN h o ha.1
    obtain ⟨b2, m2, rs, e2, hrun, hr2⟩ := ih hr1 (ha.2 m1 r hpost)
    exact ⟨b2, m2, r :: rs, by simp [run, e1, e2], ⟨m1, r, rs, hpost, hrun, rfl⟩, hr2⟩

theorem mrep_init (N : Nat) (d : κ × ν) : MRep N (init N d) Abs.empty :=
  ⟨[], Rep.init N d, by simp, by simp [Abs.empty], rfl⟩

end Verif.CxMap
