import Verif.Loops.Spec
import Verif.CxSet.Lemmas
import Verif.CxMap.Lemmas

namespace Verif.Loops

open Verif.Buf

variable {ε κ : Type} [DecidableEq κ]

/-- Erasing the element of a buffer that has the key of `x`: the only element of the array that changes is the one where `x` was,
and what remains is the other elements. -/
theorem eraseKey (key : ε → κ) {N : Nat} {b : Buf ε} {cur : List ε} (h : Rep N b cur) (hn : (cur.map key).Nodup) {x : ε}
    (hx : x ∈ cur) :
    ∃ j, ∃ hj : j < cur.length, cur[j] = x ∧ ∃ b' cur', eraseIf (fun e => key e == key x) b = .ok (b', 1) ∧
      b'.storage = b.storage.set j cur[cur.length - 1] ∧ Rep N b' cur' ∧ cur'.length + 1 = cur.length ∧ (x :: cur').Perm cur ∧
      ∀ n, n < j → cur'[n]? = cur[n]? := by
  have hne : cur ≠ [] := by rintro rfl; simp at hx
  have hs : (cur.findIdx? (fun e => key e == key x)).isSome := by
    rw [List.findIdx?_isSome]; simp; exact ⟨x, hx, rfl⟩
  obtain ⟨j, hi⟩ := Option.isSome_iff_exists.mp hs
  obtain ⟨hj, hk, _⟩ := List.findIdx?_eq_some_iff_getElem.mp hi
  obtain ⟨n, hnl, hnx⟩ := List.mem_iff_getElem.mp hx
  have hjn : j = n := by
    apply (List.getElem_inj (i := j) (j := n) (h₀ := by simpa using hj) (h₁ := by simpa using hnl) hn).mp
    simpa [hnx] using hk
  have hjx : cur[j] = x := by subst hjn; exact hnx
  have hpos : 0 < cur.length := by omega
  have hg := h.get (i := cur.length - 1) (by omega)
  have hst := h.set hj cur[cur.length - 1]
  have he : eraseIf (fun e => key e == key x) b = .ok (⟨b.storage.set j cur[cur.length - 1], cur.length - 1⟩, 1) := by
    unfold eraseIf
    rw [h.find, hi]
    simp only [Outcome.ok_bind]
    rw [h.size, szDec_of_pos hpos, hg]
    simp only [Outcome.ok_bind]
    rw [hst.1]
    simp
  obtain ⟨b', e', hb'⟩ := h.eraseIf_some hi hne
  rw [he] at e'
  simp only [Outcome.ok.injEq, Prod.mk.injEq, and_true] at e'
  have hperm := Rep.swapErase_perm hne hj
  rw [hjx] at hperm
  refine ⟨j, hj, hjx, b', _, by rw [he, e'], by rw [← e'], hb', by simp [Rep.swapErase]; omega, hperm, ?_⟩
  intro n hn
  unfold Rep.swapErase
  rw [List.dropLast_eq_take, List.getElem?_take]
  simp only [List.length_set]
  rw [if_pos (by omega), List.getElem?_set_ne (by omega)]

/-- The loop over the elements from `pre.length` on, of which `kept` and `rest` remain to be in the container. -/
theorem rangeErase_aux (key : ε → κ) (p : ε → Bool) {N : Nat} (body : Unit → Buf ε → ε → Outcome (Unit × Buf ε))
    (hb : ∀ b x, body () b x = if p x then (do
      let (b', _) ← eraseIf (fun e => key e == key x) b
      return ((), b')) else .ok ((), b)) {l : List ε} (hl : (l.map key).Nodup) (rest : List ε) :
    ∀ (pre kept cur : List ε) (b : Buf ε), l = pre ++ rest → Rep N b cur → cur.Perm (kept ++ rest) →
      (cur.map key).Nodup → cur.length ≤ l.length → (∀ j, pre.length ≤ j → j < l.length → b.storage[j]? = l[j]?) →
      ∃ b' cur', rangeLoop body pre.length rest.length () b = .ok (rest, (), b') ∧ Rep N b' cur' ∧
        cur'.Perm (kept ++ rest.filter (fun x => !p x)) := by
  induction rest with
  | nil => intro pre kept cur b he hr hp _ _ _; exact ⟨b, cur, rfl, hr, by simpa using hp⟩
  | cons x rest ih =>
    intro pre kept cur b he hr hp hn hle hst
    have hget : arrGet b.storage pre.length = .ok x := by
      rw [arrGet_ok, hst _ (Nat.le_refl _) (by rw [he]; simp), he]; simp
    have he' : l = (pre ++ [x]) ++ rest := by simp [he]
    have hxc : x ∈ cur := by rw [hp.mem_iff]; simp
    cases hpx : p x
    · obtain ⟨b', cur', e, h1, h2⟩ := ih (pre ++ [x]) (kept ++ [x]) cur b he' hr (by simpa using hp) hn hle
        (fun j hj hjl => hst j (by simp at hj; omega) hjl)
      refine ⟨b', cur', ?_, h1, by simpa [hpx] using h2⟩
      simp only [List.length_append, List.length_singleton] at e
      simp [rangeLoop, hget, hb, hpx, e]
    · obtain ⟨j, hj, hjx, b1, cur1, e1, hs1, hr1, hlen, hperm, _⟩ := eraseKey key hr hn hxc
      have hji : j ≤ pre.length := by
        by_cases hlt : pre.length < j
        · exfalso
          have h1 := hst j (by omega) (by omega)
          have h2 : b.storage[j]? = some x := by
            have := hr.get hj
            rw [arrGet_ok] at this; rw [this, hjx]
          rw [h2] at h1
          have hjl : j < l.length := by omega
          have h3 : l[j] = x := by
            rw [List.getElem?_eq_getElem hjl] at h1; simpa using h1.symm
          have h4 : l[pre.length]'(by rw [he]; simp) = x := by simp [he]
          have := (List.getElem_inj (i := j) (j := pre.length) (h₀ := by simpa using hjl)
            (h₁ := by simp [he]) hl).mp (by simp [h3, h4])
          omega
        · omega
      have hpc : cur1.Perm (kept ++ rest) := by
        have : (x :: cur1).Perm (x :: (kept ++ rest)) := hperm.trans (hp.trans (List.perm_middle))
        exact (List.perm_cons x).mp this
      have hn1 : (cur1.map key).Nodup := by
        have := (hperm.map key).nodup_iff.mpr hn
        simp only [List.map_cons, List.nodup_cons] at this
        exact this.2
      obtain ⟨b', cur', e, h1, h2⟩ := ih (pre ++ [x]) kept cur1 b1 he' hr1 hpc hn1 (by omega)
        (fun n hn hnl => by
          simp at hn
          rw [hs1, List.getElem?_set_ne (by omega)]
          exact hst n (by omega) hnl)
      refine ⟨b', cur', ?_, h1, by simpa [hpx] using h2⟩
      simp only [List.length_append, List.length_singleton] at e
      simp [rangeLoop, hget, hb, hpx, e1, e]

/-- The loop that erases without advancing, with the elements before `i` in `kept`. -/
theorem purge_aux (key : ε → κ) (p : ε → Bool) {N : Nat} (erase : Buf ε → ε → Outcome (Buf ε × Nat))
    (he : ∀ b x, erase b x = eraseIf (fun e => key e == key x) b) (fuel : Nat) :
    ∀ (kept rest : List ε) (b : Buf ε), Rep N b (kept ++ rest) → ((kept ++ rest).map key).Nodup → fuel = rest.length →
      ∃ tr b' cur', purgeLoop p erase fuel kept.length b = .ok (tr, b') ∧ tr.Perm rest ∧ Rep N b' cur' ∧
        cur'.Perm (kept ++ rest.filter (fun x => !p x)) := by
  induction fuel with
  | zero =>
    intro kept rest b hr hn hf
    have : rest = [] := by cases rest <;> simp_all
    subst this
    exact ⟨[], b, kept, by simp [purgeLoop, hr.size], .nil, by simpa using hr, by simp⟩
  | succ fuel ih =>
    intro kept rest b hr hn hf
    cases rest with
    | nil => simp at hf
    | cons x rest =>
      have hne : ¬ kept.length = b.size := by rw [hr.size]; simp
      have hget : arrGet b.storage kept.length = .ok x := by
        have := hr.get (i := kept.length) (by simp)
        simpa using this
      cases hpx : p x
      · obtain ⟨tr, b', cur', e, h1, h2, h3⟩ := ih (kept ++ [x]) rest b (by simpa using hr) (by simpa using hn)
          (by simpa using hf)
        simp only [List.length_append, List.length_singleton] at e
        exact ⟨x :: tr, b', cur', by simp [purgeLoop, hne, hget, hpx, e], h1.cons x, h2, by simpa [hpx] using h3⟩
      · obtain ⟨j, hj, hjx, b1, cur1, e1, hs1, hr1, hlen, hperm, hbefore⟩ :=
          eraseKey key hr hn (x := x) (by simp)
        have hjk : j = kept.length := by
          apply (List.getElem_inj (i := j) (j := kept.length) (h₀ := by simpa using hj) (h₁ := by simp) hn).mp
          simp only [List.getElem_map]
          rw [hjx]; simp
        subst hjk
        obtain ⟨rest1, hc1⟩ : ∃ rest1, cur1 = kept ++ rest1 := by
          have hk : cur1.take kept.length = kept := by
            apply List.ext_getElem?
            intro n
            rw [List.getElem?_take]
            split
            · rw [hbefore n (by assumption), List.getElem?_append_left (by assumption)]
            · rw [List.getElem?_eq_none (by omega)]
          exact ⟨cur1.drop kept.length, (List.take_append_drop kept.length cur1).symm.trans (by rw [hk])⟩
        subst hc1
        have hpr : rest1.Perm rest := by
          have h1 : (x :: (kept ++ rest1)).Perm (x :: (kept ++ rest)) := hperm.trans List.perm_middle
          exact (List.perm_append_left_iff kept).mp ((List.perm_cons x).mp h1)
        have hn1 : ((kept ++ rest1).map key).Nodup := by
          have := (hperm.map key).nodup_iff.mpr hn
          simp only [List.map_cons, List.nodup_cons] at this
          exact this.2
        obtain ⟨tr, b', cur', e, h1, h2, h3⟩ := ih kept rest1 b1 hr1 hn1 (by
          have := hpr.length_eq
          simp at hf; omega)
        refine ⟨x :: tr, b', cur', by simp [purgeLoop, hne, hget, hpx, he, e1, e], (h1.trans hpr).cons x, h2, ?_⟩
        refine h3.trans ?_
        simp only [List.filter_cons, hpx, Bool.not_true, Bool.false_eq_true, ↓reduceIte]
        exact (hpr.filter _).append_left kept

/-! ## Bodies that only append -/

omit [DecidableEq κ]

theorem readRange_ok {st : List ε} {n : Nat} : ∀ {i : Nat} {l : List ε}, readRange st i n = .ok l →
    l.length = n ∧ ∃ tail, st.drop i = l ++ tail := by
  induction n with
  | zero => intro i l h; simp [readRange] at h; subst h; exact ⟨rfl, _, rfl⟩
  | succ n ih =>
    intro i l h
    simp only [readRange, Outcome.bind_eq_ok] at h
    obtain ⟨x, hx, xs, hxs, h⟩ := h
    simp at h; subst h
    obtain ⟨h1, tail, h2⟩ := ih hxs
    refine ⟨by simp [h1], tail, ?_⟩
    rw [arrGet_ok] at hx
    obtain ⟨hi, hx⟩ := List.getElem?_eq_some_iff.mp hx
    rw [List.drop_eq_getElem_cons hi, h2, hx]; rfl

theorem rep_of_elems {b : Buf ε} {l : List ε} (h : elems b = .ok l) : Rep b.storage.length b l := by
  obtain ⟨h1, tail, h2⟩ := readRange_ok h
  exact ⟨rfl, h1.symm, tail, by simpa using h2⟩

variable {σ : Type}

theorem range_append_aux {body : σ → Buf ε → ε → Outcome (σ × Buf ε)} {N : Nat} (hb : Appends N body) {l : List ε} (rest : List ε) :
    ∀ (pre more : List ε) (s : σ) (b : Buf ε) (tr : List ε) (s' : σ) (b' : Buf ε), l = pre ++ rest →
      b.storage.length = N → elems b = .ok (l ++ more) → rangeLoop body pre.length rest.length s b = .ok (tr, s', b') →
      tr = rest ∧ ∃ more', elems b' = .ok (l ++ more') := by
  induction rest with
  | nil =>
    intro pre more s b tr s' b' _ _ he h
    simp [rangeLoop] at h
    obtain ⟨rfl, rfl, rfl⟩ := h
    exact ⟨rfl, more, he⟩
  | cons x rest ih =>
    intro pre more s b tr s' b' hl hN he h
    have hr := rep_of_elems he
    have hget : arrGet b.storage pre.length = .ok x := by
      rw [hr.get (i := pre.length) (by simp [hl])]; simp [hl]
    simp only [List.length_cons, rangeLoop, hget, Outcome.ok_bind, Outcome.bind_eq_ok] at h
    obtain ⟨⟨s1, b1⟩, h1, ⟨tr1, r⟩, h2, h3⟩ := h
    simp at h3
    obtain ⟨rfl, rfl⟩ := h3
    obtain ⟨hN1, more1, e1⟩ := hb _ _ _ _ _ _ h1 hN he
    rw [List.append_assoc] at e1
    obtain ⟨ht, m, hm⟩ := ih (pre ++ [x]) (more ++ more1) s1 b1 tr1 s' b' (by simp [hl]) hN1 e1 (by simpa using h2)
    exact ⟨by rw [ht], m, hm⟩

theorem iter_append_aux {body : σ → Buf ε → ε → Outcome (σ × Buf ε)} {N : Nat} (hb : Appends N body) (rem : Nat) :
    ∀ (pre rest : List ε) (s : σ) (b : Buf ε) (tr : List ε) (s' : σ) (b' : Buf ε),
      elems b = .ok (pre ++ rest) → b.storage.length = N → pre.length + rem = N →
      (iterLoop body pre.length rem s b = .ok (tr, s', b') ∨ indexLoop body pre.length rem s b = .ok (tr, s', b')) →
      elems b' = .ok (pre ++ tr) ∧ ∃ more, tr = rest ++ more := by
  induction rem with
  | zero =>
    intro pre rest s b tr s' b' he hcap hN h
    have hr := rep_of_elems he
    have hle := hr.le
    have : rest = [] := by
      cases rest with
      | nil => rfl
      | cons => simp at hle; omega
    subst this
    have hs := hr.size
    simp at hs
    simp [iterLoop, indexLoop, hs] at h
    obtain ⟨rfl, rfl, rfl⟩ := h
    exact ⟨he, [], by simp⟩
  | succ rem ih =>
    intro pre rest s b tr s' b' he hcap hN h
    have hr := rep_of_elems he
    have hs := hr.size
    cases rest with
    | nil =>
      simp at hs
      simp [iterLoop, indexLoop, hs] at h
      obtain ⟨rfl, rfl, rfl⟩ := h
      exact ⟨he, [], by simp⟩
    | cons x rest =>
      have hget : arrGet b.storage pre.length = .ok x := by
        rw [hr.get (i := pre.length) (by simp)]; simp
      have hne : ¬ pre.length = b.size := by rw [hs]; simp
      have hlt : pre.length < b.size := by rw [hs]; simp
      simp only [iterLoop, indexLoop, CxVector.index, hget, Outcome.ok_bind, if_neg hne, if_pos hlt,
        Outcome.bind_eq_ok] at h
      have key : ∃ s1 b1 tr1, body s b x = .ok (s1, b1) ∧
          (iterLoop body (pre.length + 1) rem s1 b1 = .ok (tr1, s', b') ∨
            indexLoop body (pre.length + 1) rem s1 b1 = .ok (tr1, s', b')) ∧ tr = x :: tr1 := by
        rcases h with h | h
        · obtain ⟨⟨s1, b1⟩, h1, ⟨tr1, r⟩, h2, h3⟩ := h
          simp at h3
          obtain ⟨rfl, rfl⟩ := h3
          exact ⟨s1, b1, tr1, h1, .inl h2, rfl⟩
        · obtain ⟨⟨s1, b1⟩, h1, ⟨tr1, r⟩, h2, h3⟩ := h
          simp at h3
          obtain ⟨rfl, rfl⟩ := h3
          exact ⟨s1, b1, tr1, h1, .inr h2, rfl⟩
      obtain ⟨s1, b1, tr1, h1, h2, rfl⟩ := key
      obtain ⟨hcap1, more1, e1⟩ := hb _ _ _ _ _ _ h1 hcap he
      obtain ⟨ha, m, hm⟩ := ih (pre ++ [x]) (rest ++ more1) s1 b1 tr1 s' b' (by simpa using e1)
        hcap1 (by simp; omega) (by simpa using h2)
      exact ⟨by simpa using ha, more1 ++ m, by simp [hm]⟩

end Verif.Loops
