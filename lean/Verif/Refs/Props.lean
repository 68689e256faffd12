import Verif.Refs.Lemmas
import Verif.Refs.Spec

/-!
# References into the fixed-capacity containers  (C115)
-/

namespace Verif.Refs

open Verif.Buf

variable {α κ ν : Type}

/-! ## References that are kept -/

/-- **C115, vectors.** A reference to element `i` of a vector refers to the same unchanged element after every history of
operations, as long as there always are more than `i` elements and nothing is assigned to it. -/
theorem C115_vector_reference {N : Nat} {i : Nat} (ops : List (CxVector.Op α))
    (hw : ∀ o ∈ ops, (∀ f, o ≠ .resize f) ∧ ∀ x, o ≠ .assign i x) :
    ∀ {b b' : Buf α} {rs : List (CxVector.Out α)}, i < b.size → CxVector.run N b ops = .ok (b', rs) →
      Above (CxVector.step N) i b ops → i < b'.size ∧ CxVector.index b' i = CxVector.index b i ∧ read b' i = read b i := by
  induction ops with
  | nil => intro b b' rs hi e _; simp [CxVector.run] at e; rw [← e.1]; exact ⟨hi, rfl, rfl⟩
  | cons o os ih =>
    intro b b' rs hi e ha
    simp only [CxVector.run] at e
    obtain ⟨⟨b1, r⟩, e1, e2⟩ := Outcome.bind_eq_ok.mp e
    obtain ⟨⟨b2, rs2⟩, e3, e4⟩ := Outcome.bind_eq_ok.mp e2
    simp at e4
    obtain ⟨hi1, ha1⟩ := ha b1 r e1
    have hrec := ih (fun o ho => hw o (List.mem_cons_of_mem _ ho)) hi1 e3 ha1
    rw [e4.1] at hrec
    suffices h : b1.storage[i]? = b.storage[i]? by
      refine ⟨hrec.1, hrec.2.1.trans ?_, hrec.2.2.trans ?_⟩
      · simp [CxVector.index, arrGet, h]
      · simp [read, arrGet, h]
    have hwo := hw o (by simp)
    cases o with
    | pushBack x =>
      simp only [CxVector.step, append] at e1
      obtain ⟨b3, e5, e6⟩ := Outcome.bind_eq_ok.mp e1
      obtain ⟨st, e7, e8⟩ := Outcome.bind_eq_ok.mp e5
      obtain ⟨hl, rfl⟩ := arrSet_eq_ok e7
      simp at e6 e8
      rw [← e6.1, ← e8]
      simp only [List.getElem?_set]
      rw [if_neg (by omega)]
    | assign j x =>
      simp only [CxVector.step, CxVector.assign] at e1
      obtain ⟨b3, e5, e6⟩ := Outcome.bind_eq_ok.mp e1
      obtain ⟨st, e7, e8⟩ := Outcome.bind_eq_ok.mp e5
      obtain ⟨hl, rfl⟩ := arrSet_eq_ok e7
      simp at e6 e8
      rw [← e6.1, ← e8]
      have hj : j ≠ i := by rintro rfl; exact hwo.2 x rfl
      simp [List.getElem?_set, hj]
    | popBack =>
      simp only [CxVector.step, Buf.popBack] at e1
      obtain ⟨⟨b3, x⟩, e5, e6⟩ := Outcome.bind_eq_ok.mp e1
      obtain ⟨y, e7, e8⟩ := Outcome.bind_eq_ok.mp e5
      simp at e6 e8
      rw [← e6.1, ← e8.1]
    | resize f => exact absurd rfl (hwo.1 f)
    | clear => simp [CxVector.step] at e1; rw [← e1.1]
    | size => simp [CxVector.step] at e1; rw [← e1.1]
    | empty => simp [CxVector.step] at e1; rw [← e1.1]
    | full => simp [CxVector.step] at e1; rw [← e1.1]
    | front => simp only [CxVector.step] at e1; obtain ⟨x, _, e5⟩ := Outcome.bind_eq_ok.mp e1; simp at e5; rw [← e5.1]
    | back => simp only [CxVector.step] at e1; obtain ⟨x, _, e5⟩ := Outcome.bind_eq_ok.mp e1; simp at e5; rw [← e5.1]
    | index j => simp only [CxVector.step] at e1; obtain ⟨x, _, e5⟩ := Outcome.bind_eq_ok.mp e1; simp at e5; rw [← e5.1]
    | iterate => simp only [CxVector.step] at e1; obtain ⟨x, _, e5⟩ := Outcome.bind_eq_ok.mp e1; simp at e5; rw [← e5.1]

example : Above (CxVector.step 3) 0 (⟨[7, 0, 0], 1⟩ : Buf Nat) [.pushBack 8, .pushBack 9, .assign 1 5, .popBack] ∧
    CxVector.run 3 (⟨[7, 0, 0], 1⟩ : Buf Nat) [.pushBack 8, .pushBack 9, .assign 1 5, .popBack] =
      .ok (⟨[7, 5, 9], 2⟩, [.val 8, .val 9, .unit, .val 9]) := by
  refine ⟨?_, by decide⟩
  simp only [Above, and_true]
  intro b1 r h; simp [CxVector.step, append, arrSet] at h; obtain ⟨rfl, _⟩ := h; refine ⟨by decide, ?_⟩
  intro b1 r h; simp [CxVector.step, append, arrSet, szInc] at h; obtain ⟨rfl, _⟩ := h; refine ⟨by decide, ?_⟩
  intro b1 r h; simp [CxVector.step, CxVector.assign, arrSet, szInc] at h; obtain ⟨rfl, _⟩ := h; refine ⟨by decide, ?_⟩
  intro b1 r h; simp [CxVector.step, Buf.popBack, arrGet, szDec, szInc] at h; obtain ⟨rfl, _⟩ := h; decide

section
variable [DecidableEq κ]

/-- **C115, maps, partial.** The reference that `get(k)` returned is as good as a new one after every history in which `k` is not
erased and there always remain more elements than were iterated before `k`: it is the one `get(k)` returns now, it reads the
value that `k` has now, and assigning to it is assigning to `get(k)`.  Missing: `C115_map_reference_violated`. -/
theorem C115_map_reference_partial {N : Nat} (hN : N < szMod) {b b' : Buf (κ × ν)} {m : CxMap.Abs κ ν} (h : CxMap.MRep N b m)
    {k : κ} {i : Nat} (hg : getRef b k = .ok i) (ops : List (CxMap.Op κ ν)) (hw : .erase k ∉ ops)
    {rs : List (CxMap.Out κ ν)} (e : CxMap.run N b ops = .ok (b', rs)) (ha : Above (CxMap.step N) i b ops) :
    getRef b' k = .ok i ∧ (∃ v, read b' i = .ok (k, v) ∧ CxMap.get b' k = .ok v) ∧
      ∀ w, writeValue b' i w = CxMap.assignGet b' k w := by
  have h0 : i < b.size ∧ ∃ v, b.storage[i]? = some (k, v) := by
    unfold getRef at hg
    obtain ⟨fo, ef, e3⟩ := Outcome.bind_eq_ok.mp hg
    cases fo with
    | none => simp at e3
    | some f =>
      simp at e3; subst e3
      obtain ⟨hf, ⟨k', v⟩, hy, hp⟩ := find_some' ef
      simp at hp; subst hp
      exact ⟨hf, v, hy⟩
  have key : i < b'.size ∧ ∃ v, b'.storage[i]? = some (k, v) := by
    clear hg h
    induction ops generalizing b rs with
    | nil => simp [CxMap.run] at e; rw [← e.1]; exact h0
    | cons o os ih =>
      simp only [CxMap.run] at e
      obtain ⟨⟨b1, r⟩, e1, e2⟩ := Outcome.bind_eq_ok.mp e
      obtain ⟨⟨b2, rs2⟩, e3, e4⟩ := Outcome.bind_eq_ok.mp e2
      simp at e4
      obtain ⟨hi1, ha1⟩ := ha b1 r e1
      obtain ⟨v, hv⟩ := h0.2
      have hs := map_step_slot h0.1 hv (by rintro k' rfl rfl; exact hw (by simp)) e1
      exact ih (fun hm => hw (List.mem_cons_of_mem _ hm)) (rs := rs2) (by rw [e3, e4.1]) ha1 ⟨hi1, hs⟩
  obtain ⟨m', h'⟩ := map_run_mrep hN ops h e
  obtain ⟨hi, v, hv⟩ := key
  obtain ⟨hfn, hf, hl⟩ := mrep_slot h' hi hv
  have hr : arrGet b'.storage i = .ok (k, v) := arrGet_ok.mpr hv
  refine ⟨by simp [getRef, hf], ⟨v, hr, by simp [CxMap.get, hf, hr]⟩, ?_⟩
  intro w
  simp [writeValue, CxMap.assignGet, hf, hr]

example : getRef (⟨[(1, 10), (2, 20), (0, 0)], 2⟩ : Buf (Nat × Nat)) 1 = .ok 0 ∧
    CxMap.run 3 (⟨[(1, 10), (2, 20), (0, 0)], 2⟩ : Buf (Nat × Nat)) [.put 3 30, .put 1 11, .erase 2] =
      .ok (⟨[(1, 11), (3, 30), (3, 30)], 2⟩, [.bool true, .bool false, .nat 1]) := by decide

/-- **C115, maps, is false when another key is erased** while `k` is the last element iterated.  In every state with such
elements: the other key is removed, `k` keeps its value, but what is written through the reference that `get(k)` returned before is
lost; and when a further key is put, the reference is to the value of that key. -/
theorem C115_map_reference_violated {N : Nat} (hN : N < szMod) {b : Buf (κ × ν)} {m : CxMap.Abs κ ν} (h : CxMap.MRep N b m)
    {k k' : κ} {v : ν} (hk : m.fn k = some v) (hk' : m.fn k' ≠ none) (hne : k' ≠ k) {i : Nat}
    (hg : getRef b k = .ok i) (hi : i + 1 = b.size) :
    ∃ b1, CxMap.erase b k' = .ok (b1, 1) ∧ CxMap.get b1 k = .ok v ∧
      (∀ w, ∃ b2, writeValue b1 i w = .ok b2 ∧ CxMap.get b2 k = .ok v) ∧
      (∀ k2 v2, m.fn k2 = none → ∃ b2, CxMap.insertOrAssign b1 k2 v2 = .ok (b2, true) ∧ read b2 i = .ok (k2, v2)) := by
  have hrep := h
  obtain ⟨l, hr, hn, hm, hc⟩ := h
  obtain ⟨w', hw'⟩ := (CxMap.key_mem hm k').mp hk'
  obtain ⟨f, hf, ef, hlf⟩ := CxMap.find_some hn hw'
  have hfi : find (fun e => e.1 == k) b = .ok (some i) := by
    unfold getRef at hg
    obtain ⟨fo, ef, e3⟩ := Outcome.bind_eq_ok.mp hg
    cases fo with
    | none => simp at e3
    | some f => simp at e3; subst e3; exact ef
  obtain ⟨_, ⟨k0, v0⟩, hy, hp⟩ := find_some' hfi
  simp at hp; subst hp
  have hv0 := (mrep_slot hrep (by omega) hy).1
  rw [hk] at hv0; simp at hv0; subst hv0
  have hf1 : f ≠ i := by
    rintro rfl
    have := hr.get hf
    rw [arrGet_ok, hy, hlf] at this; simp at this
    exact hne this.1.symm
  have hbi : szDec b.size = i := by rw [szDec_of_pos (by omega)]; omega
  have hle := hr.le
  have hsz := hr.size
  have hcap := hr.cap
  have hgi : arrGet b.storage i = .ok (k0, v) := arrGet_ok.mpr hy
  have he : CxMap.erase b k' = .ok (⟨b.storage.set f (k0, v), i⟩, 1) := by
    simp only [CxMap.erase, eraseIf, hr.find, ef, Outcome.ok_bind, hbi, hgi]
    rw [arrSet_of_lt (by omega)]; rfl
  have hrep1 := (CxMap.erase_rep hrep k').2 hk'
  obtain ⟨b1, n, e1, hcn, h1⟩ := hrep1
  rw [he] at e1; simp at e1
  subst e1
  have hlen : f < b.storage.length := by omega
  have hget : ∀ st : List (κ × ν), (∀ j, j < i → st[j]? = (b.storage.set f (k0, v))[j]?) → CxMap.get ⟨st, i⟩ k0 = .ok v := by
    intro st hst
    have hsc : ∀ (p : κ × ν → Bool) (n a : Nat), a + n ≤ i → scan p st a n = scan p (b.storage.set f (k0, v)) a n := by
      intro p n
      induction n with
      | zero => intro a _; rfl
      | succ n ih =>
        intro a ha
        simp only [scan, arrGet, hst a (by omega)]
        rw [ih (a + 1) (by omega)]
    have hslot : (b.storage.set f (k0, v))[f]? = some (k0, v) := by simp [List.getElem?_set, hlen]
    have := (mrep_slot h1 (i := f) (by simp only; omega) hslot).2.1
    have hfind : find (fun e => e.1 == k0) (⟨st, i⟩ : Buf (κ × ν)) = .ok (some f) := by
      rw [← this]; exact hsc _ i 0 (by omega)
    have hgs : arrGet st f = .ok (k0, v) := by rw [arrGet_ok, hst f (by omega), hslot]
    simp [CxMap.get, hfind, hgs]
  refine ⟨_, he, hget _ (fun _ _ => rfl), ?_, ?_⟩
  · intro w
    refine ⟨⟨(b.storage.set f (k0, v)).set i (k0, w), i⟩, ?_, hget _ ?_⟩
    · have : arrGet (b.storage.set f (k0, v)) i = .ok (k0, v) := by
        rw [arrGet_ok]; simp [List.getElem?_set, hf1, hy]
      simp only [writeValue, this, Outcome.ok_bind]
      rw [arrSet_of_lt (by simp; omega)]; rfl
    · intro j hj
      simp only [List.getElem?_set (i := i)]
      rw [if_neg (by omega)]
  · intro k2 v2 h2
    have hk2 : (CxMap.upd m.fn k' none) k2 = none := by simp [CxMap.upd, h2]
    have hno : find (fun e => e.1 == k2) (⟨b.storage.set f (k0, v), i⟩ : Buf (κ × ν)) = .ok none := by
      obtain ⟨l1, hr1, hn1, hm1, hc1⟩ := h1
      have := (not_congr (CxMap.key_mem hm1 k2)).mp (by simp [hk2])
      rw [hr1.find, CxMap.find_none this]
    refine ⟨⟨(b.storage.set f (k0, v)).set i (k2, v2), szInc i⟩, ?_, ?_⟩
    · simp only [CxMap.insertOrAssign, hno, Outcome.ok_bind, append]
      rw [arrSet_of_lt (by simp; omega)]; rfl
    · unfold read
      rw [arrGet_ok]; simp [List.getElem?_set]; omega

example : CxMap.MRep 2 (⟨[(1, 10), (2, 20)], 2⟩ : Buf (Nat × Nat)) ⟨fun k => if k = 1 then some 10 else if k = 2 then some 20 else none, 2⟩ ∧
    getRef (⟨[(1, 10), (2, 20)], 2⟩ : Buf (Nat × Nat)) 2 = .ok 1 :=
  ⟨⟨[(1, 10), (2, 20)], ⟨rfl, rfl, [], rfl⟩, by decide, by intro k v; simp; grind, rfl⟩, by decide⟩

end

section
variable [DecidableEq α]

theorem set_insert_slot {b b' : Buf α} {x : α} {r : Bool} {i : Nat} (hi : i < b.size) (e : CxSet.insert b x = .ok (b', r)) :
    b'.storage[i]? = b.storage[i]? := by
  unfold CxSet.insert at e
  obtain ⟨c, _, e2⟩ := Outcome.bind_eq_ok.mp e
  cases c with
  | true => simp at e2; rw [← e2.1]
  | false =>
    simp only [Bool.false_eq_true, ↓reduceIte, append] at e2
    obtain ⟨b3, e5, e6⟩ := Outcome.bind_eq_ok.mp e2
    obtain ⟨st, e7, e8⟩ := Outcome.bind_eq_ok.mp e5
    obtain ⟨hl, rfl⟩ := arrSet_eq_ok e7
    simp at e6 e8
    rw [← e6.1, ← e8]
    simp only [List.getElem?_set]
    rw [if_neg (by omega)]

theorem set_insert_size {N : Nat} (hN : N < szMod) {b b' : Buf α} {x : α} {r : Bool} (hc : b.storage.length = N)
    (e : CxSet.insert b x = .ok (b', r)) : b.size ≤ b'.size ∧ b'.storage.length = N := by
  unfold CxSet.insert at e
  obtain ⟨c, _, e2⟩ := Outcome.bind_eq_ok.mp e
  cases c with
  | true => simp at e2; rw [← e2.1]; exact ⟨by omega, hc⟩
  | false =>
    simp only [Bool.false_eq_true, ↓reduceIte, append] at e2
    obtain ⟨b3, e5, e6⟩ := Outcome.bind_eq_ok.mp e2
    obtain ⟨st, e7, e8⟩ := Outcome.bind_eq_ok.mp e5
    obtain ⟨hl, rfl⟩ := arrSet_eq_ok e7
    simp at e6 e8
    rw [← e6.1, ← e8]
    simp only [List.length_set]
    rw [szInc_of_lt (by omega : b.size < N) hN]
    exact ⟨by omega, hc⟩

theorem set_merge_slot {N : Nat} (hN : N < szMod) (xs : List α) : ∀ {b b' : Buf α} {i : Nat}, b.storage.length = N → i < b.size →
    CxSet.merge b xs = .ok b' → b'.storage[i]? = b.storage[i]? ∧ b'.storage.length = N := by
  induction xs with
  | nil => intro b b' i hc _ e; simp [CxSet.merge] at e; rw [← e]; exact ⟨rfl, hc⟩
  | cons x xs ih =>
    intro b b' i hc hi e
    simp only [CxSet.merge] at e
    obtain ⟨⟨b1, r⟩, e1, e2⟩ := Outcome.bind_eq_ok.mp e
    have hs := set_insert_slot hi e1
    have hz := set_insert_size hN hc e1
    have := ih hz.2 (Nat.lt_of_lt_of_le hi hz.1) e2
    exact ⟨this.1.trans hs, this.2⟩

/-- **C115, sets, partial.** A reference to the element `k` of a set refers to it after every history in which `k` is not erased and
there always remain more elements than were iterated before `k`.  Missing: `C115_set_reference_violated`. -/
theorem C115_set_reference_partial {N : Nat} (hN : N < szMod) {k : α} {i : Nat} (ops : List (CxSet.Op α)) (hw : .erase k ∉ ops) :
    ∀ {b b' : Buf α} {rs : List (CxSet.Out α)}, b.storage.length = N → i < b.size → read b i = .ok k →
      CxSet.run b ops = .ok (b', rs) → Above CxSet.step i b ops →
      i < b'.size ∧ read b' i = .ok k ∧ b'.storage.length = N := by
  induction ops with
  | nil => intro b b' rs hc hi hr e _; simp [CxSet.run] at e; rw [← e.1]; exact ⟨hi, hr, hc⟩
  | cons o os ih =>
    intro b b' rs hc hi hr e ha
    simp only [CxSet.run] at e
    obtain ⟨⟨b1, r⟩, e1, e2⟩ := Outcome.bind_eq_ok.mp e
    obtain ⟨⟨b2, rs2⟩, e3, e4⟩ := Outcome.bind_eq_ok.mp e2
    simp at e4
    obtain ⟨hi1, ha1⟩ := ha b1 r e1
    suffices hs : b1.storage[i]? = b.storage[i]? ∧ b1.storage.length = N by
      have hr1 : read b1 i = .ok k := by
        unfold read at hr ⊢; rw [arrGet_ok] at hr ⊢; rw [hs.1, hr]
      exact ih (fun hm => hw (List.mem_cons_of_mem _ hm)) hs.2 hi1 hr1 (rs := rs2) (by rw [e3, e4.1]) ha1
    unfold read at hr
    rw [arrGet_ok] at hr
    cases o with
    | insert x =>
      simp only [CxSet.step] at e1
      obtain ⟨⟨b3, c⟩, e5, e6⟩ := Outcome.bind_eq_ok.mp e1
      simp at e6; rw [← e6.1]
      exact ⟨set_insert_slot hi e5, (set_insert_size hN hc e5).2⟩
    | merge xs =>
      simp only [CxSet.step] at e1
      obtain ⟨b3, e5, e6⟩ := Outcome.bind_eq_ok.mp e1
      simp at e6; rw [← e6.1]
      exact set_merge_slot hN xs hc hi e5
    | erase k' =>
      simp only [CxSet.step, CxSet.erase, eraseIf] at e1
      obtain ⟨⟨b3, x⟩, e5, e6⟩ := Outcome.bind_eq_ok.mp e1
      simp at e6
      rw [← e6.1]
      obtain ⟨fo, ef, e7⟩ := Outcome.bind_eq_ok.mp e5
      cases fo with
      | none => simp at e7; rw [← e7.1]; exact ⟨rfl, hc⟩
      | some f =>
        obtain ⟨hf, y, hy, hp⟩ := find_some' ef
        simp only at e7
        obtain ⟨e0, e8, e9⟩ := Outcome.bind_eq_ok.mp e7
        obtain ⟨st, e10, e11⟩ := Outcome.bind_eq_ok.mp e9
        simp at e11
        rw [← e11.1]
        obtain ⟨hl, rfl⟩ := arrSet_eq_ok e10
        have hfi : f ≠ i := by
          rintro rfl
          rw [hr] at hy; simp at hy; subst hy
          simp at hp; subst hp
          exact hw (by simp)
        exact ⟨by simp [List.getElem?_set, hfi], by simpa using hc⟩
    | popBack =>
      simp only [CxSet.step, Buf.popBack] at e1
      obtain ⟨⟨b3, x⟩, e5, e6⟩ := Outcome.bind_eq_ok.mp e1
      obtain ⟨y, e7, e8⟩ := Outcome.bind_eq_ok.mp e5
      simp at e6 e8
      rw [← e6.1, ← e8.1]; exact ⟨rfl, hc⟩
    | clear => simp [CxSet.step] at e1; rw [← e1.1]; exact ⟨rfl, hc⟩
    | size => simp [CxSet.step] at e1; rw [← e1.1]; exact ⟨rfl, hc⟩
    | empty => simp [CxSet.step] at e1; rw [← e1.1]; exact ⟨rfl, hc⟩
    | contains x =>
      simp only [CxSet.step] at e1; obtain ⟨x, _, e5⟩ := Outcome.bind_eq_ok.mp e1; simp at e5; rw [← e5.1]; exact ⟨rfl, hc⟩
    | iterate =>
      simp only [CxSet.step] at e1; obtain ⟨x, _, e5⟩ := Outcome.bind_eq_ok.mp e1; simp at e5; rw [← e5.1]; exact ⟨rfl, hc⟩

example : CxSet.run (⟨[1, 2, 0], 2⟩ : Buf Nat) [.insert 3, .insert 1, .erase 2] =
      .ok (⟨[1, 3, 3], 2⟩, [.bool true, .bool false, .nat 1]) ∧ read (⟨[1, 2, 0], 2⟩ : Buf Nat) 0 = .ok 1 := by decide

/-- **C115, sets, is false when another element is erased** while the reference is to the last element iterated: the element is still
in the set, but the reference is to an object outside `begin() … end()`, and when something else is inserted the reference is to that. -/
theorem C115_set_reference_violated {N : Nat} {b : Buf α} {s : CxSet.Abs α} (h : CxSet.SRep N b s)
    {k k' : α} (hk' : s.mem k') (hne : k' ≠ k) {i : Nat} (hi : i + 1 = b.size) (hr : read b i = .ok k) :
    ∃ b1, CxSet.erase b k' = .ok (b1, 1) ∧ CxSet.contains b1 k = .ok true ∧ b1.size = i ∧
      ∀ x, ¬ s.mem x → ∃ b2, CxSet.insert b1 x = .ok (b2, true) ∧ read b2 i = .ok x := by
  obtain ⟨l, hl, hn, hm, hc⟩ := h
  have hk'l := (hm k').mp hk'
  have hle := hl.le
  have hsz := hl.size
  have hcap := hl.cap
  have hil : i < l.length := by omega
  unfold read at hr
  have hli : l[i] = k := by
    have := hl.get hil; rw [hr] at this; simp at this; exact this.symm
  obtain ⟨f, hf⟩ := Option.isSome_iff_exists.mp (show (l.findIdx? (fun x => x == k')).isSome by simp [List.findIdx?_isSome, hk'l])
  obtain ⟨hfl, hfk, _⟩ := List.findIdx?_eq_some_iff_getElem.mp hf
  simp at hfk
  have hfi : f ≠ i := by rintro rfl; rw [hli] at hfk; exact hne hfk.symm
  have hbi : szDec b.size = i := by rw [szDec_of_pos (by omega)]; omega
  have he : CxSet.erase b k' = .ok (⟨b.storage.set f k, i⟩, 1) := by
    simp only [CxSet.erase, eraseIf, hl.find, hf, Outcome.ok_bind, hbi, hr]
    rw [arrSet_of_lt (by omega)]; rfl
  obtain ⟨b1, l1, e1, hr1, hn1, hm1, hlen1⟩ := CxSet.erase_rep hl hn k'
  rw [he] at e1
  simp [hk'l] at e1
  subst e1
  refine ⟨_, he, ?_, rfl, ?_⟩
  · rw [CxSet.contains_rep hr1]
    have : k ∈ l1 := by rw [hm1]; exact ⟨Ne.symm hne, hli ▸ List.getElem_mem hil⟩
    simp [this]
  · intro x hx
    have hxl : x ∉ l1 := by rw [hm1]; intro hh; exact hx ((hm x).mpr hh.2)
    refine ⟨⟨(b.storage.set f k).set i x, szInc i⟩, ?_, ?_⟩
    · simp only [CxSet.insert, CxSet.contains_rep hr1, hxl, Outcome.ok_bind, append]
      simp only [decide_false, Bool.false_eq_true, ↓reduceIte]
      rw [arrSet_of_lt (by simp; omega)]; rfl
    · unfold read
      rw [arrGet_ok]; simp [List.getElem?_set]; omega

example : CxSet.SRep 3 (⟨[1, 2, 3], 3⟩ : Buf Nat) ⟨(· ∈ [1, 2, 3]), 3⟩ ∧ read (⟨[1, 2, 3], 3⟩ : Buf Nat) 2 = .ok 3 :=
  ⟨⟨[1, 2, 3], ⟨rfl, rfl, [], rfl⟩, by decide, fun _ => Iff.rfl, rfl⟩, by decide⟩

end

/-! ## Writes through the iterators -/

section
variable [DecidableEq κ]

theorem update_values_rep {N : Nat} {b : Buf (κ × ν)} {m : CxMap.Abs κ ν} (h : CxMap.MRep N b m) (f : κ → ν → ν) :
    ∃ b', updateValues f b = .ok b' ∧ CxMap.MRep N b' ⟨fun k => (m.fn k).map (f k), m.card⟩ := by
  obtain ⟨l, hr, hn, hm, hc⟩ := h
  obtain ⟨b', e, hb⟩ := update_rep hr (fun e => (e.1, f e.1 e.2))
  refine ⟨b', e, _, hb, ?_, ?_, by simpa using hc⟩
  · simpa [List.map_map, Function.comp_def] using hn
  · intro k v
    simp only [Option.map_eq_some_iff, List.mem_map, Prod.mk.injEq]
    constructor
    · rintro ⟨w, hw, rfl⟩; exact ⟨(k, w), (hm k w).mp hw, rfl, rfl⟩
    · rintro ⟨⟨k0, w⟩, hw, rfl, rfl⟩; exact ⟨w, (hm k0 w).mpr hw, rfl⟩

/-- **C115, values of a map.** In histories that also write to the values of a map by iteration, nothing is undefined and the map
behaves as the partial function whose values are replaced by what the loop makes of each key and value. -/
theorem C115_map_update_values {N : Nat} (hN : N < szMod) (ops : List (MOp κ ν)) :
    ∀ {b : Buf (κ × ν)} {m : CxMap.Abs κ ν}, CxMap.MRep N b m → AdmissibleM N m ops →
      ∃ b' m' rs, runM N b ops = .ok (b', rs) ∧ SpecRunM N m ops m' rs ∧ CxMap.MRep N b' m' ∧
        (∀ k v, CxMap.get b' k = .ok v ↔ m'.fn k = some v) := by
  induction ops with
  | nil =>
    intro b m h _
    refine ⟨b, m, [], rfl, ⟨rfl, rfl⟩, h, fun k v => ?_⟩
    rw [CxMap.get_rep h]; cases m.fn k <;> simp
  | cons o os ih =>
    intro b m h ha
    cases o with
    | op o =>
      obtain ⟨b1, m1, r, e1, hp, h1⟩ := CxMap.step_refines hN h o ha.1
      obtain ⟨b2, m2, rs, e2, hs, h2, hg⟩ := ih h1 (ha.2 m1 r hp)
      exact ⟨b2, m2, r :: rs, by simp [runM, e1, e2], ⟨m1, r, rs, hp, hs, rfl⟩, h2, hg⟩
    | updateValues f =>
      obtain ⟨b1, e1, h1⟩ := update_values_rep h f
      have hp : PostM N m (.updateValues f) ⟨fun k => (m.fn k).map (f k), m.card⟩ .unit := ⟨fun _ => rfl, rfl, rfl⟩
      obtain ⟨b2, m2, rs, e2, hs, h2, hg⟩ := ih h1 (ha.2 _ _ hp)
      exact ⟨b2, m2, .unit :: rs, by simp [runM, e1, e2], ⟨_, _, rs, hp, hs, rfl⟩, h2, hg⟩

example : AdmissibleM 2 CxMap.Abs.empty ([.op (.put 1 10), .op (.put 2 20), .updateValues (fun k v => k + v), .op (.get 2)] :
    List (MOp Nat Nat)) := by
  simp only [AdmissibleM, PostM, CxMap.Pre, CxMap.Post, CxMap.Abs.empty]
  grind

example : runM 2 (init 2 (0, 0)) ([.op (.put 1 10), .op (.put 2 20), .updateValues (fun k v => k + v), .op (.get 2)] :
    List (MOp Nat Nat)) = .ok (⟨[(1, 11), (2, 22)], 2⟩, [.bool true, .bool true, .unit, .val 22]) := by decide

/-- Erasing an element of which there are two leaves one. -/
theorem erase_twice {N : Nat} {b : Buf α} {l : List α} (h : Rep N b l) {p : α → Bool} {i j : Nat} (hij : i < j) (hj : j < l.length)
    (hi : p (l[i]'(by omega)) = true) (hpj : p l[j] = true) :
    ∃ b', eraseIf p b = .ok (b', 1) ∧ b'.size + 1 = b.size ∧ ∃ n, find p b' = .ok (some n) := by
  have hne : l ≠ [] := by rintro rfl; simp at hj
  obtain ⟨f, hf⟩ := Option.isSome_iff_exists.mp (show (l.findIdx? p).isSome by
    rw [List.findIdx?_isSome, List.any_eq_true]; exact ⟨_, List.getElem_mem hj, hpj⟩)
  obtain ⟨hfl, hpf, hmin⟩ := List.findIdx?_eq_some_iff_getElem.mp hf
  obtain ⟨b', e, hr'⟩ := h.eraseIf_some hf hne
  have hperm := Rep.swapErase_perm hne hfl
  have hlen := hperm.length_eq
  refine ⟨b', e, by rw [hr'.size, h.size, ← hlen]; simp, ?_⟩
  have hcount : 2 ≤ l.countP p := by
    have h1 : l = l.take j ++ l[j] :: l.drop (j + 1) := by simp
    rw [h1, List.countP_append, List.countP_cons_of_pos hpj]
    have : 0 < (l.take j).countP p := by
      rw [List.countP_pos_iff]
      exact ⟨l[i], by rw [List.mem_take_iff_getElem]; exact ⟨i, by omega, rfl⟩, hi⟩
    omega
  have hc2 := hperm.countP_eq p
  rw [List.countP_cons_of_pos hpf] at hc2
  have hpos : 0 < (Rep.swapErase l f hne).countP p := by omega
  obtain ⟨a, ha, hpa⟩ := List.countP_pos_iff.mp hpos
  obtain ⟨n, hn⟩ := Option.isSome_iff_exists.mp (show ((Rep.swapErase l f hne).findIdx? p).isSome by
    rw [List.findIdx?_isSome, List.any_eq_true]; exact ⟨a, ha, hpa⟩)
  exact ⟨n, by rw [hr'.find, hn]⟩

/-- **C115, keys of a map (negation).** The iterators of a map that is not const allow its keys to be written.  If that makes two keys
equal, in any map, then the size still counts both, and after the key is erased the map contains it. -/
theorem C115_map_keys_violated {N : Nat} {b : Buf (κ × ν)} {m : CxMap.Abs κ ν} (h : CxMap.MRep N b m) {k k' : κ} (hne : k ≠ k')
    (hk : m.fn k ≠ none) (hk' : m.fn k' ≠ none) (f : κ → κ) (hf : f k = f k') :
    ∃ b1 b2, updateKeys f b = .ok b1 ∧ b1.size = m.card ∧ CxMap.erase b1 (f k) = .ok (b2, 1) ∧
      CxMap.contains b2 (f k) = .ok true := by
  obtain ⟨l, hr, hn, hm, hc⟩ := h
  obtain ⟨v, hv⟩ := (CxMap.key_mem hm k).mp hk
  obtain ⟨v', hv'⟩ := (CxMap.key_mem hm k').mp hk'
  obtain ⟨i, hi, ei⟩ := List.mem_iff_getElem.mp hv
  obtain ⟨j, hj, ej⟩ := List.mem_iff_getElem.mp hv'
  have hij : i ≠ j := by rintro rfl; rw [ei] at ej; simp at ej; exact hne ej.1
  obtain ⟨b1, e1, hr1⟩ := update_rep hr (fun e => (f e.1, e.2))
  have gi : ∀ a, a = i ∨ a = j → ∀ ha : a < (l.map fun e => (f e.1, e.2)).length,
      (fun e : κ × ν => e.1 == f k) ((l.map fun e => (f e.1, e.2))[a]) = true := by
    rintro a (rfl | rfl) ha
    · simp [ei]
    · simp [ej, hf]
  have : ∃ b2, eraseIf (fun e => e.1 == f k) b1 = .ok (b2, 1) ∧ b2.size + 1 = b1.size ∧ ∃ n, find (fun e => e.1 == f k) b2 = .ok (some n) := by
    rcases Nat.lt_or_gt_of_ne hij with hlt | hlt
    · exact erase_twice hr1 hlt (by simpa using hj) (gi i (.inl rfl) (by simpa using hi)) (gi j (.inr rfl) (by simpa using hj))
    · exact erase_twice hr1 hlt (by simpa using hi) (gi j (.inr rfl) (by simpa using hj)) (gi i (.inl rfl) (by simpa using hi))
  obtain ⟨b2, e2, _, n, e3⟩ := this
  exact ⟨b1, b2, e1, by rw [hr1.size, hc]; simp, e2, by simp [CxMap.contains, e3]⟩

example : (updateKeys (fun k => k / 2) (⟨[(2, 10), (3, 20)], 2⟩ : Buf (Nat × Nat))) = .ok ⟨[(1, 10), (1, 20)], 2⟩ := by decide

end

section
variable [DecidableEq α]

theorem update_set_rep {N : Nat} {b : Buf α} {s : CxSet.Abs α} (h : CxSet.SRep N b s) {f : α → α}
    (hf : ∀ x y, s.mem x → s.mem y → f x = f y → x = y) :
    ∃ b' s', update f b = .ok b' ∧ PostS s (.update f) s' .unit ∧ CxSet.SRep N b' s' := by
  obtain ⟨l, hr, hn, hm, hc⟩ := h
  obtain ⟨b', e, hb⟩ := update_rep hr f
  refine ⟨b', ⟨(· ∈ l.map f), l.length⟩, e, ⟨?_, hc.symm, rfl⟩, l.map f, hb, ?_, fun _ => Iff.rfl, by simp⟩
  · intro y; simp [hm]
  · rw [List.Nodup, List.pairwise_map]
    refine List.Pairwise.imp_of_mem ?_ hn
    intro x y hx hy hne he
    exact hne (hf x y ((hm x).mpr hx) ((hm y).mpr hy) he)

/-- **C115, elements of a set, partial.** In histories that also write to the elements of a set by iteration, without making two of them
equal, nothing is undefined and the set behaves as the mathematical set whose elements are so replaced.  Missing: writes that make elements
equal, see `C115_set_update_violated`. -/
theorem C115_set_update_partial {N : Nat} (hN : N < szMod) (ops : List (SOp α)) :
    ∀ {b : Buf α} {s : CxSet.Abs α}, CxSet.SRep N b s → AdmissibleS N s ops →
      ∃ b' s' rs, runS b ops = .ok (b', rs) ∧ SpecRunS s ops s' rs ∧ CxSet.SRep N b' s' ∧
        ∀ k, ∃ r, CxSet.contains b' k = .ok r ∧ (r = true ↔ s'.mem k) := by
  induction ops with
  | nil =>
    intro b s h _
    refine ⟨b, s, [], rfl, ⟨rfl, rfl⟩, h, fun k => ?_⟩
    obtain ⟨l, hr, hn, hm, hc⟩ := h
    exact ⟨_, CxSet.contains_rep hr k, by simp [hm]⟩
  | cons o os ih =>
    intro b s h ha
    cases o with
    | op o =>
      obtain ⟨b1, s1, r, e1, hp, h1⟩ := CxSet.step_refines hN h o ha.1
      obtain ⟨b2, s2, rs, e2, hs, h2, hg⟩ := ih h1 (ha.2 s1 r hp)
      exact ⟨b2, s2, r :: rs, by simp [runS, e1, e2], ⟨s1, r, rs, hp, hs, rfl⟩, h2, hg⟩
    | update f =>
      obtain ⟨b1, s1, e1, hp, h1⟩ := update_set_rep h ha.1
      obtain ⟨b2, s2, rs, e2, hs, h2, hg⟩ := ih h1 (ha.2 _ _ hp)
      exact ⟨b2, s2, .unit :: rs, by simp [runS, e1, e2], ⟨_, _, rs, hp, hs, rfl⟩, h2, hg⟩

example : AdmissibleS 3 CxSet.Abs.empty ([.op (.insert 1), .op (.insert 2), .update (· + 1), .op (.contains 3), .op (.erase 2)] :
    List (SOp Nat)) := by
  simp only [AdmissibleS, PostS, CxSet.Pre, CxSet.Post, CxSet.Abs.empty]
  grind

/-- **C115, elements of a set (negation).** If a loop over a set makes two of its elements equal, in any set, then the size still counts
both, and after the element is erased the set contains it. -/
theorem C115_set_update_violated {N : Nat} {b : Buf α} {s : CxSet.Abs α} (h : CxSet.SRep N b s) {x y : α} (hne : x ≠ y)
    (hx : s.mem x) (hy : s.mem y) (f : α → α) (hf : f x = f y) :
    ∃ b1 b2, update f b = .ok b1 ∧ b1.size = s.card ∧ CxSet.erase b1 (f x) = .ok (b2, 1) ∧
      CxSet.contains b2 (f x) = .ok true := by
  obtain ⟨l, hr, hn, hm, hc⟩ := h
  obtain ⟨i, hi, ei⟩ := List.mem_iff_getElem.mp ((hm x).mp hx)
  obtain ⟨j, hj, ej⟩ := List.mem_iff_getElem.mp ((hm y).mp hy)
  have hij : i ≠ j := by rintro rfl; rw [ei] at ej; exact hne ej
  obtain ⟨b1, e1, hr1⟩ := update_rep hr f
  have gi : ∀ a, a = i ∨ a = j → ∀ ha : a < (l.map f).length, (fun e : α => e == f x) ((l.map f)[a]) = true := by
    rintro a (rfl | rfl) ha
    · simp [ei]
    · simp [ej, hf]
  have : ∃ b2, eraseIf (fun e => e == f x) b1 = .ok (b2, 1) ∧ b2.size + 1 = b1.size ∧ ∃ n, find (fun e => e == f x) b2 = .ok (some n) := by
    rcases Nat.lt_or_gt_of_ne hij with hlt | hlt
    · exact erase_twice hr1 hlt (by simpa using hj) (gi i (.inl rfl) (by simpa using hi)) (gi j (.inr rfl) (by simpa using hj))
    · exact erase_twice hr1 hlt (by simpa using hi) (gi j (.inr rfl) (by simpa using hj)) (gi i (.inl rfl) (by simpa using hi))
  obtain ⟨b2, e2, _, n, e3⟩ := this
  exact ⟨b1, b2, e1, by rw [hr1.size, hc]; simp, e2, by simp [CxSet.contains, e3]⟩

example : (update (fun k => k / 2) (⟨[2, 3, 0], 2⟩ : Buf Nat)) = .ok ⟨[1, 1, 0], 2⟩ := by decide

end

/-! ## Arguments that refer to the container itself -/

theorem pushBackRef_eq {b : Buf α} {j : Nat} {x : α} (h : read b j = .ok x) : pushBackRef b j = append b x := by
  unfold read at h; simp [pushBackRef, append, h]

theorem eraseSame_eq {same : α → α → Bool} {b : Buf α} {j : Nat} {x : α} (h : read b j = .ok x) :
    eraseSame same b j = eraseIf (fun y => same y x) b := by
  unfold read at h; simp only [eraseSame, eraseIf, find, scanRef_eq h]; rfl

/-- **C115, own elements as arguments.** Every operation that is given a reference to an element of the container itself does what it does for
a copy of the element: `push_back` of a vector; `contains`, `insert` and `erase` of a set; `put` of a map with a key and a value of its own,
`erase` of its own key; `erase` of a key and value of a multimap through references to its own key and to the value in its own set. -/
theorem C115_alias [DecidableEq α] [DecidableEq κ] [DecidableEq ν] :
    (∀ (b : Buf α) (j : Nat) (x : α), read b j = .ok x →
      pushBackRef b j = append b x ∧ containsRef b j = CxSet.contains b x ∧ insertRef b j = CxSet.insert b x ∧
      eraseRef b j = CxSet.erase b x) ∧
    (∀ (b : Buf (κ × ν)) (j n : Nat) (x y : κ × ν), read b j = .ok x → read b n = .ok y →
      putRef b j n = CxMap.insertOrAssign b x.1 y.2 ∧ mapEraseRef b j = CxMap.erase b x.1) ∧
    (∀ (b : CxMultimap.MM κ ν) (j n : Nat) (x : κ × Buf ν) (s : Buf ν) (v : ν), read b j = .ok x → CxMap.get b x.1 = .ok s →
      read s n = .ok v → multiEraseRef b j n = CxMultimap.erase b x.1 v) := by
  refine ⟨?_, ?_, ?_⟩
  · intro b j x h
    have hc : containsRef b j = CxSet.contains b x := by
      unfold read at h; simp only [containsRef, CxSet.contains, find, scanRef_eq h]
    exact ⟨pushBackRef_eq h, hc, by simp only [insertRef, CxSet.insert, hc, pushBackRef_eq h], eraseSame_eq h⟩
  · intro b j n x y h h'
    refine ⟨?_, eraseSame_eq h⟩
    unfold read at h h'
    simp only [putRef, CxMap.insertOrAssign, find, scanRef_eq h]
    cases hs : scan (fun e => e.1 == x.1) b.storage 0 b.size with
    | ub => rfl
    | panic => rfl
    | ok fo => cases fo <;> simp [h, h']
  · intro b j n x s v h hg hv
    have hx := h
    unfold read at h
    simp only [multiEraseRef, CxMultimap.erase, CxMap.contains, find, scanRef_eq h]
    unfold CxMap.get at hg ⊢
    obtain ⟨fo, ef, e3⟩ := Outcome.bind_eq_ok.mp hg
    cases fo with
    | none => simp at e3
    | some f =>
      simp only at e3
      obtain ⟨e0, e4, e5⟩ := Outcome.bind_eq_ok.mp e3
      simp at e5
      subst e5
      have ef' := ef
      unfold find at ef'
      obtain ⟨hf, y, hy, hp⟩ := find_some' ef
      rw [arrGet_ok.mpr hy] at e4; simp at e4; subst e4
      simp only [ef', ef, Outcome.ok_bind, Option.isSome_some, ↓reduceIte, Outcome.pure_eq_ok, arrGet_ok.mpr hy, eraseRef]
      rw [eraseSame_eq hv]
      simp only [CxSet.erase]
      cases he : eraseIf (fun x => x == v) y.2 with
      | ub => rfl
      | panic => rfl
      | ok q =>
        obtain ⟨s', r⟩ := q
        simp only [Outcome.ok_bind, CxMap.assignGet, ef, arrGet_ok.mpr hy, Outcome.pure_eq_ok]
        cases hs : arrSet b.storage f (y.1, s') with
        | ub => rfl
        | panic => rfl
        | ok st =>
          obtain ⟨hl, rfl⟩ := arrSet_eq_ok hs
          simp only [Outcome.ok_bind]
          split
          · have : ∃ z, read (⟨b.storage.set f (y.1, s'), b.size⟩ : Buf (κ × Buf ν)) j = .ok z ∧ z.1 = x.1 := by
              unfold read
              by_cases hfj : f = j
              · subst hfj
                exact ⟨(y.1, s'), by rw [arrGet_ok]; simp [List.getElem?_set, hl], by simpa using hp⟩
              · exact ⟨x, by rw [arrGet_ok] at h ⊢; simp [List.getElem?_set, hfj, h], rfl⟩
            obtain ⟨z, hz, hzk⟩ := this
            simp only [mapEraseRef]
            rw [eraseSame_eq hz, hzk]; rfl
          · rfl

example : multiEraseRef (⟨[(1, ⟨[5, 0], 1⟩), (2, ⟨[6, 7], 2⟩)], 2⟩ : CxMultimap.MM Nat Nat) 0 0 =
    .ok (⟨[(2, ⟨[6, 7], 2⟩), (2, ⟨[6, 7], 2⟩)], 1⟩, 1) := by decide

end Verif.Refs
