import Verif.Buf.Model

namespace Verif.Buf

/-- A well-formed buffer of capacity `N` whose visible elements are `l`. -/
structure Rep {α : Type} (N : Nat) (b : Buf α) (l : List α) : Prop where
  cap : b.storage.length = N
  size : b.size = l.length
  vis : ∃ stale, b.storage = l ++ stale

namespace Rep
variable {α : Type} {N : Nat} {b : Buf α} {l : List α}

theorem le (h : Rep N b l) : l.length ≤ N := by
  obtain ⟨hc, hs, st, he⟩ := h
  rw [← hc, he]; simp

theorem get (h : Rep N b l) {i : Nat} (hi : i < l.length) : arrGet b.storage i = .ok l[i] := by
  obtain ⟨hc, hs, st, he⟩ := h
  rw [arrGet_ok, he, List.getElem?_append_left hi]; simp [hi]

theorem get_ub (h : Rep N b l) {i : Nat} (hi : N ≤ i) : arrGet b.storage i = .ub := by
  have : b.storage[i]? = none := by simp [h.cap, hi]
  simp [arrGet, this]

theorem set_ub (h : Rep N b l) {i : Nat} (hi : N ≤ i) (x : α) : arrSet b.storage i x = .ub := by
  have : ¬ i < b.storage.length := by rw [h.cap]; omega
  simp [arrSet, this]

theorem init (N : Nat) (d : α) : Rep N (init N d) [] :=
  ⟨by simp [Buf.init], rfl, List.replicate N d, rfl⟩

theorem ofList {d : α} {ts : List α} (h : Buf.ofList N d ts = some b) : Rep N b ts := by
  unfold Buf.ofList at h
  split at h
  · simp at h; subst h
    exact ⟨by simp; omega, rfl, _, rfl⟩
  · simp at h

theorem clear (h : Rep N b l) : Rep N ⟨b.storage, 0⟩ [] :=
  ⟨h.cap, rfl, b.storage, rfl⟩

theorem append (h : Rep N b l) (hN : N < szMod) (hl : l.length < N) (x : α) :
    ∃ b', append b x = .ok b' ∧ Rep N b' (l ++ [x]) := by
  obtain ⟨hc, hs, st, he⟩ := h
  refine ⟨⟨b.storage.set b.size x, l.length + 1⟩, ?_, ?_, ?_, ?_⟩
  · unfold Buf.append
    rw [arrSet_of_lt (by omega), hs, szInc_of_lt hl hN]; rfl
  · simp [hc]
  · simp
  · cases st with
    | nil => rw [he] at hc; simp at hc; omega
    | cons y ys => exact ⟨ys, by rw [he, hs]; simp⟩

theorem append_ub (h : Rep N b l) (hl : l.length = N) (x : α) : Buf.append b x = .ub := by
  unfold Buf.append
  rw [h.set_ub (by rw [h.size]; omega)]; rfl

theorem popBack (h : Rep N b (l ++ [x])) :
    ∃ b', popBack b = .ok (b', x) ∧ Rep N b' l := by
  have hg := h.get (i := l.length) (by simp)
  obtain ⟨hc, hs, st, he⟩ := h
  simp at hs hg
  refine ⟨⟨b.storage, l.length⟩, ?_, hc, rfl, x :: st, by simp [he]⟩
  unfold Buf.popBack
  rw [hs, szDec_of_pos (by omega)]
  simp [hg]

theorem popBack_ub (h : Rep N b []) (hN : N < szMod) : Buf.popBack b = .ub := by
  unfold Buf.popBack
  have : b.size = 0 := h.size
  rw [this]
  have h2 : szDec 0 = 18446744073709551615 := rfl
  rw [szMod_lit] at hN
  simp only [h2]
  rw [h.get_ub (by omega)]; rfl

theorem scan_aux (p : α → Bool) {st : List α} (suf : List α) :
    ∀ (pre : List α) (n : Nat), st = pre ++ suf → n ≤ suf.length →
      scan p st pre.length n = .ok (((suf.take n).findIdx? p).map (· + pre.length)) := by
  induction suf with
  | nil => intro pre n he hn; simp at hn; subst hn; simp [scan]
  | cons x xs ih =>
    intro pre n he hn
    cases n with
    | zero => simp [scan]
    | succ n =>
      have hg : arrGet st pre.length = .ok x := by
        rw [arrGet_ok, he]; simp
      simp only [scan, hg, Outcome.ok_bind, Outcome.pure_eq_ok, List.take_succ_cons,
        List.findIdx?_cons]
      split
      · simp
      · have := ih (pre ++ [x]) n (by simp [he]) (by simp at hn; omega)
        rw [List.length_append, List.length_singleton] at this
        rw [this]
        congr 1
        simp only [Option.map_map]
        congr 1
        funext k; simp only [Function.comp]; omega

theorem find (h : Rep N b l) (p : α → Bool) : find p b = .ok (l.findIdx? p) := by
  obtain ⟨hc, hs, st, he⟩ := h
  have := scan_aux p (l ++ st) [] l.length (by simpa using he) (by simp)
  unfold Buf.find
  rw [hs]
  simpa using this

theorem readRange_aux {st : List α} (suf : List α) :
    ∀ (pre : List α) (n : Nat), st = pre ++ suf → n ≤ suf.length →
      readRange st pre.length n = .ok (suf.take n) := by
  induction suf with
  | nil => intro pre n he hn; simp at hn; subst hn; simp [readRange]
  | cons x xs ih =>
    intro pre n he hn
    cases n with
    | zero => simp [readRange]
    | succ n =>
      have hg : arrGet st pre.length = .ok x := by
        rw [arrGet_ok, he]; simp
      have := ih (pre ++ [x]) n (by simp [he]) (by simp at hn; omega)
      simp at this
      simp [readRange, hg, this]

theorem elems (h : Rep N b l) : elems b = .ok l := by
  obtain ⟨hc, hs, st, he⟩ := h
  have := readRange_aux (l ++ st) [] l.length (by simpa using he) (by simp)
  unfold Buf.elems
  rw [hs]
  simpa using this

/-- Overwriting a visible element. -/
theorem set (h : Rep N b l) {i : Nat} (hi : i < l.length) (x : α) :
    arrSet b.storage i x = .ok (b.storage.set i x) ∧
      Rep N ⟨b.storage.set i x, b.size⟩ (l.set i x) := by
  have hle := h.le
  obtain ⟨hc, hs, st, he⟩ := h
  refine ⟨arrSet_of_lt (by omega), by simp [hc], by simp [hs], st, ?_⟩
  simp [he, List.set_append, hi]

/-- What erasing the first match does to the visible elements: the last one takes its
place. -/
def swapErase (l : List α) (i : Nat) (hl : l ≠ []) : List α := (l.set i (l.getLast hl)).dropLast

theorem eraseIf_none (h : Rep N b l) {p : α → Bool} (hp : ∀ x ∈ l, p x = false) :
    eraseIf p b = .ok (b, 0) := by
  unfold Buf.eraseIf
  rw [h.find]
  have : l.findIdx? p = none := by simpa [List.findIdx?_eq_none_iff] using hp
  simp [this]

theorem eraseIf_some (h : Rep N b l) {p : α → Bool} {i : Nat} (hi : l.findIdx? p = some i)
    (hl : l ≠ []) : ∃ b', eraseIf p b = .ok (b', 1) ∧ Rep N b' (swapErase l i hl) := by
  have hil : i < l.length := by
    have := List.findIdx?_eq_some_iff_getElem.mp hi
    exact this.1
  have hle := h.le
  have hpos : 0 < l.length := by omega
  have hg := h.get (i := l.length - 1) (by omega)
  have hs := h.set hil l[l.length - 1]
  refine ⟨⟨b.storage.set i l[l.length - 1], l.length - 1⟩, ?_, ?_⟩
  · unfold Buf.eraseIf
    rw [h.find, hi]
    simp only [Outcome.ok_bind]
    rw [h.size, szDec_of_pos hpos, hg]
    simp only [Outcome.ok_bind]
    rw [hs.1]
    simp
  · obtain ⟨hc, hsz, st, he⟩ := hs.2
    refine ⟨hc, by simp [swapErase], [((l.set i l[l.length - 1]).getLast (by simpa using hl))] ++ st, ?_⟩
    simp only at he ⊢
    rw [he]
    unfold swapErase
    rw [← List.append_assoc, List.getLast_eq_getElem hl, List.dropLast_concat_getLast]

theorem set_ne_nil {l : List α} {i : Nat} {x : α} (h : l ≠ []) : l.set i x ≠ [] := by simpa using h

/-- Erasing is a permutation of removing the matched element. -/
theorem swapErase_perm {l : List α} {i : Nat} (hl : l ≠ []) (hi : i < l.length) :
    (l[i] :: swapErase l i hl).Perm l := by
  obtain ⟨pre, x, rfl⟩ : ∃ pre x, l = pre ++ [x] :=
    ⟨l.dropLast, l.getLast hl, (List.dropLast_concat_getLast hl).symm⟩
  unfold swapErase
  by_cases hlt : i < pre.length
  · simp only [List.getLast_append_of_ne_nil _ (List.cons_ne_nil x []), List.getLast_singleton, List.set_append, hlt, ↓reduceIte,
      List.dropLast_concat, List.getElem_append_left]
    have h1 : pre = pre.take i ++ pre[i] :: pre.drop (i + 1) := by simp
    have h2 : pre.set i x = pre.take i ++ x :: pre.drop (i + 1) :=
      List.set_eq_take_append_cons_drop ▸ by simp [hlt]
    rw [h2]
    conv => rhs; rw [h1]
    refine List.Perm.trans (List.Perm.cons _ List.perm_middle) ?_
    refine List.Perm.trans ?_ (List.perm_append_comm (l₁ := [x]))
    refine List.Perm.trans (List.Perm.swap ..) (List.Perm.cons _ List.perm_middle.symm)
  · simp at hi
    have : i = pre.length := by omega
    subst this
    simp [List.set_append]
    exact List.perm_append_comm (l₁ := [x])

end Rep
end Verif.Buf
