import Verif.Buf.Lemmas

/-!
# Lists whose elements have pairwise inequivalent keys

Used for `cx_map` and `cx_set` with keys whose `operator==` is an equivalence relation that need
not be equality of values (C121).
-/

namespace Verif.Buf

variable {ε κ : Type} [BEq κ] [EquivBEq κ] (key : ε → κ)

/-- No two elements of the list have equivalent keys. -/
def Uniq {ε κ : Type} [BEq κ] (key : ε → κ) (l : List ε) : Prop :=
  l.Pairwise fun a b => (key a == key b) = false

theorem Uniq.get {key : ε → κ} {l : List ε} (h : Uniq key l) {i j : Nat} (hi : i < l.length)
    (hj : j < l.length) (e : (key l[i] == key l[j]) = true) : i = j := by
  rcases Nat.lt_trichotomy i j with hlt | rfl | hlt
  · have := List.pairwise_iff_getElem.mp h i j hi hj hlt
    rw [e] at this; simp at this
  · rfl
  · have := List.pairwise_iff_getElem.mp h j i hj hi hlt
    rw [BEq.symm e] at this; simp at this

theorem Uniq.mem {key : ε → κ} {l : List ε} (h : Uniq key l) {a b : ε} (ha : a ∈ l) (hb : b ∈ l)
    (e : (key a == key b) = true) : a = b := by
  obtain ⟨i, hi, rfl⟩ := List.mem_iff_getElem.mp ha
  obtain ⟨j, hj, rfl⟩ := List.mem_iff_getElem.mp hb
  have := h.get hi hj e
  subst this; rfl

theorem uniq_find_some {key : ε → κ} {l : List ε} (h : Uniq key l) {e : ε} {k : κ} (he : e ∈ l)
    (hk : (key e == k) = true) :
    ∃ i, ∃ hi : i < l.length, l.findIdx? (fun e => key e == k) = some i ∧ l[i] = e := by
  have hs : (l.findIdx? (fun e => key e == k)).isSome := by
    rw [List.findIdx?_isSome]; simp; exact ⟨e, he, hk⟩
  obtain ⟨i, hi⟩ := Option.isSome_iff_exists.mp hs
  obtain ⟨hlt, hk', _⟩ := List.findIdx?_eq_some_iff_getElem.mp hi
  exact ⟨i, hlt, hi, h.mem (List.getElem_mem _) he (BEq.trans hk' (BEq.symm hk))⟩

omit [EquivBEq κ] in
theorem uniq_find_none {key : ε → κ} {l : List ε} {k : κ} (h : ∀ e ∈ l, (key e == k) = false) :
    l.findIdx? (fun e => key e == k) = none := by
  rw [List.findIdx?_eq_none_iff]; exact h

theorem uniq_set {key : ε → κ} {l : List ε} (h : Uniq key l) {i : Nat} (hi : i < l.length) {e' : ε}
    (he : key e' = key l[i]) :
    Uniq key (l.set i e') ∧
      ∀ x, x ∈ l.set i e' ↔ x = e' ∨ (x ∈ l ∧ (key x == key l[i]) = false) := by
  constructor
  · unfold Uniq
    rw [List.pairwise_iff_getElem]
    intro a b ha hb hab
    simp only [List.length_set] at ha hb
    have := List.pairwise_iff_getElem.mp h a b ha hb hab
    rw [List.getElem_set, List.getElem_set]
    split
    · rename_i hia; subst hia
      split
      · omega
      · rw [he]; exact this
    · split
      · rename_i hib; subst hib; rw [he]; exact this
      · exact this
  · intro x
    rw [List.mem_iff_getElem]
    constructor
    · rintro ⟨j, hj, e⟩
      simp only [List.length_set] at hj
      rw [List.getElem_set] at e
      split at e
      · exact .inl e.symm
      · rename_i hne
        refine .inr ⟨e ▸ List.getElem_mem _, ?_⟩
        cases hb : (key x == key l[i])
        · rfl
        · rw [← e] at hb
          exact absurd (h.get hj hi hb).symm hne
    · rintro (rfl | ⟨hm, hk⟩)
      · exact ⟨i, by simpa using hi, by simp⟩
      · obtain ⟨j, hj, rfl⟩ := List.mem_iff_getElem.mp hm
        refine ⟨j, by simpa using hj, ?_⟩
        rw [List.getElem_set]
        split
        · rename_i hij; subst hij; simp at hk
        · rfl

theorem uniq_append {key : ε → κ} {l : List ε} (h : Uniq key l) {e : ε}
    (he : ∀ x ∈ l, (key x == key e) = false) : Uniq key (l ++ [e]) := by
  unfold Uniq
  rw [List.pairwise_append]
  exact ⟨h, by simp, by simpa using he⟩

theorem uniq_perm {key : ε → κ} {l l' : List ε} (hp : l.Perm l') (h : Uniq key l) : Uniq key l' :=
  (hp.pairwise_iff (fun {x y} hxy => by rw [BEq.comm]; exact hxy)).mp h

end Verif.Buf
