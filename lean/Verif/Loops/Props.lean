import Verif.Loops.Lemmas
import Verif.CxSet.Props

/-!
# C132: loops that change the container they iterate over
-/

namespace Verif.Loops

open Verif.Buf

variable {ε σ α κ ν : Type} [DecidableEq α] [DecidableEq κ]

theorem find_pair {l : List (κ × ν)} (hn : (l.map Prod.fst).Nodup) (k : κ) (v : ν) :
    (l.find? (fun e => e.1 == k)).map Prod.snd = some v ↔ (k, v) ∈ l := by
  constructor
  · intro h
    simp only [Option.map_eq_some_iff] at h
    obtain ⟨⟨a, w⟩, h1, rfl⟩ := h
    have := List.find?_some h1
    simp at this; subst this
    exact List.mem_of_find?_eq_some h1
  · intro h
    cases hf : l.find? (fun e => e.1 == k) with
    | none => have := List.find?_eq_none.mp hf _ h; simp at this
    | some e =>
      have h1 := List.find?_some hf
      simp at h1
      obtain ⟨a, w⟩ := e
      simp at h1; subst h1
      simp [CxMap.unique_val hn (List.mem_of_find?_eq_some hf) h]

theorem nodup_length_le : ∀ {ys l : List α}, ys.Nodup → (∀ y ∈ ys, y ∈ l) → ys.length ≤ l.length := by
  intro ys
  induction ys with
  | nil => intro l _ _; simp
  | cons y ys ih =>
    intro l hn hs
    rw [List.nodup_cons] at hn
    have hy : y ∈ l := hs y (by simp)
    have := ih (l := l.erase y) hn.2 (fun z hz => by
      have hne : z ≠ y := fun h => hn.1 (h ▸ hz)
      exact (List.mem_erase_of_ne hne).mpr (hs z (by simp [hz])))
    rw [List.length_erase_of_mem hy] at this
    have := List.length_pos_of_mem hy
    simp; omega

/-! ## Appending -/

/-- **C132, a range-based `for` whose body only appends** is given exactly the elements that there were at the start, in order; none of
those that are appended. -/
theorem C132_range_append {body : σ → Buf ε → ε → Outcome (σ × Buf ε)} {N : Nat} (hb : Appends N body) {s s' : σ} {b b' : Buf ε}
    {l tr : List ε} (hN : b.storage.length = N) (hl : elems b = .ok l) (h : rangeFor body s b = .ok (tr, s', b')) :
    tr = l ∧ ∃ more, elems b' = .ok (l ++ more) := by
  have hs := (rep_of_elems hl).size
  unfold rangeFor at h
  rw [hs] at h
  exact range_append_aux hb l [] [] s b tr s' b' rfl hN (by simpa using hl) h

/-- **C132, a loop over iterators or indices whose body only appends** is given all elements, in order, also those that are appended by its
own body. -/
theorem C132_iter_append {body : σ → Buf ε → ε → Outcome (σ × Buf ε)} {N : Nat} (hb : Appends N body) {s s' : σ} {b b' : Buf ε}
    {l tr : List ε} (hN : b.storage.length = N) (hl : elems b = .ok l)
    (h : iterFor body s b = .ok (tr, s', b') ∨ indexFor body s b = .ok (tr, s', b')) :
    elems b' = .ok tr ∧ ∃ more, tr = l ++ more := by
  have := iter_append_aux hb b.storage.length [] l s b tr s' b' (by simpa using hl) hN (by simp [hN]) h
  simpa using this

/-- `if (x % 2 == 0) { v.push_back(x / 2); }`: a body that appends. -/
def pushHalf (_ : Unit) (b : Buf Nat) (x : Nat) : Outcome (Unit × Buf Nat) := do
  if x % 2 = 0 then
    let b' ← append b (x / 2)
    return ((), b')
  else return ((), b)

/-- The body is one that only appends, in every container; the loops differ in what they visit. -/
example : (∀ N, N < szMod → Appends N pushHalf) ∧
    rangeFor pushHalf () (⟨[4, 3, 6, 0, 0, 0, 0], 3⟩ : Buf Nat) =
      .ok ([4, 3, 6], (), ⟨[4, 3, 6, 2, 3, 0, 0], 5⟩) ∧
    iterFor pushHalf () (⟨[4, 3, 6, 0, 0, 0, 0], 3⟩ : Buf Nat) =
      .ok ([4, 3, 6, 2, 3, 1], (), ⟨[4, 3, 6, 2, 3, 1, 0], 6⟩) ∧
    indexFor pushHalf () (⟨[4, 3, 6, 0, 0, 0, 0], 3⟩ : Buf Nat) =
      .ok ([4, 3, 6, 2, 3, 1], (), ⟨[4, 3, 6, 2, 3, 1, 0], 6⟩) := by
  refine ⟨?_, by decide, by decide, by decide⟩
  intro N hN s b x s' b' l h hc hl
  unfold pushHalf at h
  have hr := rep_of_elems hl
  rw [hc] at hr
  split at h
  · by_cases hlt : l.length < N
    · obtain ⟨b1, e1, h1⟩ := hr.append hN hlt (x / 2)
      simp [e1] at h
      obtain ⟨-, rfl⟩ := h
      exact ⟨h1.cap, _, h1.elems⟩
    · rw [hr.append_ub (by have := hr.le; omega)] at h
      simp at h
  · simp at h
    obtain ⟨-, rfl⟩ := h
    exact ⟨hc, [], by simpa using hl⟩

/-! ## Indices -/

theorem index_defined_aux {N : Nat} {body : σ → Buf ε → ε → Outcome (σ × Buf ε)} (hb : DefinedOnElements N body) (rem : Nat) :
    ∀ (i : Nat) (s : σ) (b : Buf ε) (l : List ε), b.storage.length = N → elems b = .ok l → i + rem = N →
      ∃ tr s' b' l', indexLoop body i rem s b = .ok (tr, s', b') ∧ tr.length ≤ rem ∧ b'.storage.length = N ∧
        elems b' = .ok l' ∧ l'.length ≤ i + tr.length := by
  induction rem with
  | zero =>
    intro i s b l hc hl hi
    have hr := rep_of_elems hl
    have hle := hr.le
    exact ⟨[], s, b, l, by simp [indexLoop, hr.size]; omega, by simp, hc, hl, by simp; omega⟩
  | succ rem ih =>
    intro i s b l hc hl hi
    have hr := rep_of_elems hl
    by_cases hlt : i < l.length
    · obtain ⟨s1, b1, l1, e1, hc1, hl1⟩ := hb s b l[i] l hc hl (List.getElem_mem _)
      obtain ⟨tr, s', b', l', e, h1, h2, h3, h4⟩ := ih (i + 1) s1 b1 l1 hc1 hl1 (by omega)
      refine ⟨l[i] :: tr, s', b', l', ?_, by simp; omega, h2, h3, by simp; omega⟩
      simp [indexLoop, CxVector.index, hr.size, hlt, hr.get hlt, e1, e]
    · exact ⟨[], s, b, l, by simp [indexLoop, hr.size, hlt], by simp, hc, hl, by simp; omega⟩

/-- **C132, loops over indices** are defined whatever the body does to the container: a body need only be defined for elements that are in
the container when it is called, and it is called at most once for every element of the array. -/
theorem C132_index_defined {N : Nat} {body : σ → Buf ε → ε → Outcome (σ × Buf ε)} (hb : DefinedOnElements N body) (s : σ)
    {b : Buf ε} {l : List ε} (hN : b.storage.length = N) (hl : elems b = .ok l) :
    ∃ tr s' b' l', indexFor body s b = .ok (tr, s', b') ∧ tr.length ≤ N ∧ elems b' = .ok l' ∧ l'.length ≤ tr.length := by
  obtain ⟨tr, s', b', l', e, h1, _, h3, h4⟩ := index_defined_aux hb N 0 s b l hN hl (by simp)
  exact ⟨tr, s', b', l', by unfold indexFor; rw [hN]; exact e, h1, h3, by simpa using h4⟩

/-- `v.pop_back()` in a loop over the indices of a vector: the body is defined for elements of the container only (for an empty one it
is not), and half of the elements are visited. -/
example : DefinedOnElements 4 (fun (_ : Unit) (b : Buf Nat) (_ : Nat) => do
      let (b', _) ← popBack b
      return ((), b')) ∧
    indexFor (fun (_ : Unit) (b : Buf Nat) (_ : Nat) => do
      let (b', _) ← popBack b
      return ((), b')) () ⟨[5, 6, 7, 8], 4⟩ = .ok ([5, 6], (), ⟨[5, 6, 7, 8], 2⟩) := by
  refine ⟨?_, by decide⟩
  intro s b x l hc hl hx
  have hr := rep_of_elems hl
  have hne : l ≠ [] := by rintro rfl; simp at hx
  have he : l = l.dropLast ++ [l.getLast hne] := (List.dropLast_concat_getLast hne).symm
  rw [he] at hr
  obtain ⟨b', e, hb⟩ := hr.popBack
  exact ⟨(), b', _, by simp [e], by rw [hb.cap, hc], hb.elems⟩

/-- **C132, the range-based `for` goes on to elements that are no longer in the container**: if its body clears the container the first time,
in any container, it is still given every element. -/
theorem C132_range_stale_violated {b : Buf ε} {l : List ε} (hl : elems b = .ok l) :
    ∃ b', rangeFor (fun (_ : Unit) (b : Buf ε) (_ : ε) => .ok ((), ⟨b.storage, 0⟩)) () b = .ok (l, (), b') ∧
      (l ≠ [] → elems b' = .ok []) := by
  have hr := rep_of_elems hl
  have aux : ∀ (rest pre : List ε) (n : Nat), (pre ++ rest).length ≤ b.storage.length →
      (∀ i, i < (pre ++ rest).length → b.storage[i]? = (pre ++ rest)[i]?) →
      ∃ n', rangeLoop (fun (_ : Unit) (b : Buf ε) (_ : ε) => .ok ((), ⟨b.storage, 0⟩)) pre.length rest.length () ⟨b.storage, n⟩ =
        .ok (rest, (), ⟨b.storage, n'⟩) ∧ (rest ≠ [] → n' = 0) ∧ (n = 0 → n' = 0) := by
    intro rest
    induction rest with
    | nil => intro pre n _ _; exact ⟨n, rfl, by simp, id⟩
    | cons x rest ih =>
      intro pre n hle hst
      have hget : arrGet b.storage pre.length = .ok x := by
        rw [arrGet_ok, hst _ (by simp)]; simp
      obtain ⟨n', e, _, h0⟩ := ih (pre ++ [x]) 0 (by simpa using hle) (by simpa using hst)
      simp at e
      exact ⟨n', by simp [rangeLoop, hget, e], fun _ => h0 rfl, fun _ => h0 rfl⟩
  obtain ⟨n', e, h, _⟩ := aux l [] b.size (by simpa using hr.le) (by
    obtain ⟨_, _, st, he⟩ := hr
    intro i hi
    rw [he]
    exact List.getElem?_append_left (by simpa using hi))
  refine ⟨⟨b.storage, n'⟩, ?_, fun hne => ?_⟩
  · unfold rangeFor
    rw [hr.size]
    have : b = ⟨b.storage, b.size⟩ := rfl
    rw [this]
    exact e
  · rw [h hne]; rfl

/-! ## Erasing the element that is visited -/

/-- **C132, sets.** `for (auto const &x : s) { if (p(x)) s.erase(x); }` visits every element of the set exactly once, in the order in which it
would be iterated, and leaves exactly the elements for which `p` is false. -/
theorem C132_set_erase_visited {N : Nat} {b : Buf α} {s : CxSet.Abs α} (h : CxSet.SRep N b s) (p : α → Bool) :
    ∃ tr b' s', rangeFor (setEraseBody p) () b = .ok (tr, (), b') ∧ elems b = .ok tr ∧ tr.Nodup ∧ (∀ x, x ∈ tr ↔ s.mem x) ∧
      CxSet.SRep N b' s' ∧ ∀ x, s'.mem x ↔ s.mem x ∧ p x = false := by
  obtain ⟨l, hr, hn, hm, hc⟩ := h
  obtain ⟨b', cur', e, h1, h2⟩ := rangeErase_aux (fun x : α => x) p (N := N) (setEraseBody p)
    (fun b x => by unfold setEraseBody CxSet.erase; split <;> rfl) (l := l) (by simpa using hn) l [] [] l b rfl hr
    (by simp) (by simpa using hn) (Nat.le_refl _) (by
      obtain ⟨_, _, st, he⟩ := hr
      intro j _ hj
      rw [he]; exact List.getElem?_append_left hj)
  refine ⟨l, b', ⟨(· ∈ cur'), cur'.length⟩, by unfold rangeFor; rw [hr.size]; exact e, hr.elems, hn, fun x => (hm x).symm,
    ⟨cur', h1, h2.nodup_iff.mpr (hn.sublist (by simp)), fun _ => Iff.rfl, rfl⟩, fun x => ?_⟩
  simp only [h2.mem_iff, hm]
  simp

/-- **C132, maps.** `for (auto const &[k, v] : m) { if (p(k, v)) m.erase(k); }` visits every pair of the map exactly once, in the order in which
it would be iterated, and leaves exactly the pairs for which `p` is false. -/
theorem C132_map_erase_visited {N : Nat} {b : Buf (κ × ν)} {m : CxMap.Abs κ ν} (h : CxMap.MRep N b m) (p : κ × ν → Bool) :
    ∃ tr b' m', rangeFor (mapEraseBody p) () b = .ok (tr, (), b') ∧ elems b = .ok tr ∧ (tr.map Prod.fst).Nodup ∧
      (∀ k v, (k, v) ∈ tr ↔ m.fn k = some v) ∧ CxMap.MRep N b' m' ∧
      ∀ k v, m'.fn k = some v ↔ m.fn k = some v ∧ p (k, v) = false := by
  obtain ⟨l, hr, hn, hm, hc⟩ := h
  obtain ⟨b', cur', e, h1, h2⟩ := rangeErase_aux (Prod.fst : κ × ν → κ) p (N := N) (mapEraseBody p)
    (fun b x => by unfold mapEraseBody CxMap.erase; split <;> rfl) (l := l) hn l [] [] l b rfl hr
    (by simp) hn (Nat.le_refl _) (by
      obtain ⟨_, _, st, he⟩ := hr
      intro j _ hj
      rw [he]; exact List.getElem?_append_left hj)
  have hn' : (cur'.map Prod.fst).Nodup := by
    rw [(h2.map Prod.fst).nodup_iff]
    exact List.Nodup.sublist (List.Sublist.map _ (by simpa using List.filter_sublist)) hn
  refine ⟨l, b', ⟨fun k => (cur'.find? (fun e => e.1 == k)).map Prod.snd, cur'.length⟩, by unfold rangeFor; rw [hr.size]; exact e,
    hr.elems, hn, fun k v => (hm k v).symm, ⟨cur', h1, hn', ?_, rfl⟩, ?_⟩
  · intro k v
    exact find_pair hn' k v
  · intro k v
    rw [find_pair hn' k v, h2.mem_iff, hm]
    simp

/-- Loops that erase the multiples of three from a set, and the pairs with an odd key from a map.  In the first the element 9 moves to the
place of 3 and is erased when its old place is visited. -/
example :
    CxSet.SRep 5 (⟨[3, 4, 5, 9, 0], 4⟩ : Buf Nat) ⟨(· ∈ [3, 4, 5, 9]), 4⟩ ∧
    rangeFor (setEraseBody (fun x => x % 3 == 0)) () (⟨[3, 4, 5, 9, 0], 4⟩ : Buf Nat) =
      .ok ([3, 4, 5, 9], (), ⟨[5, 4, 5, 9, 0], 2⟩) ∧
    CxMap.MRep 3 (⟨[(1, 10), (2, 20), (3, 30)], 3⟩ : Buf (Nat × Nat))
      ⟨fun k => ([(1, 10), (2, 20), (3, 30)].find? (fun e => e.1 == k)).map Prod.snd, 3⟩ ∧
    rangeFor (mapEraseBody (fun e => e.1 % 2 == 1)) () (⟨[(1, 10), (2, 20), (3, 30)], 3⟩ : Buf (Nat × Nat)) =
      .ok ([(1, 10), (2, 20), (3, 30)], (), ⟨[(2, 20), (2, 20), (3, 30)], 1⟩) :=
  ⟨⟨[3, 4, 5, 9], ⟨rfl, rfl, [0], rfl⟩, by decide, fun _ => Iff.rfl, rfl⟩, by decide,
   ⟨[(1, 10), (2, 20), (3, 30)], ⟨rfl, rfl, [], rfl⟩, by decide, fun k v => find_pair (by decide) k v, rfl⟩, by decide⟩

/-- The loop over elements for which the body does nothing. -/
theorem rangeLoop_idle {body : σ → Buf ε → ε → Outcome (σ × Buf ε)} {s : σ} {b : Buf ε} (xs : List ε) :
    ∀ (pre post : List ε), b.storage = pre ++ xs ++ post → (∀ x ∈ xs, body s b x = .ok (s, b)) →
      rangeLoop body pre.length xs.length s b = .ok (xs, s, b) := by
  induction xs with
  | nil => intro pre post _ _; rfl
  | cons x xs ih =>
    intro pre post he hb
    have hget : arrGet b.storage pre.length = .ok x := by rw [arrGet_ok, he]; simp
    have := ih (pre ++ [x]) post (by simp [he]) (fun y hy => hb y (by simp [hy]))
    simp at this
    simp [rangeLoop, hget, hb x (by simp), this]

/-- `if (x == a) { s.erase(y); }` (cx_set.hpp:81-89). -/
def eraseAt (a y : α) (_ : Unit) (b : Buf α) (x : α) : Outcome (Unit × Buf α) := do
  if x = a then
    let (b', _) ← CxSet.erase b y
    return ((), b')
  else return ((), b)

/-- `if (x == a) { s.erase(a); s.insert(w); }` (cx_set.hpp:66-89). -/
def replaceAt (a w : α) (_ : Unit) (b : Buf α) (x : α) : Outcome (Unit × Buf α) := do
  if x = a then
    let (b1, _) ← CxSet.erase b a
    let (b2, _) ← CxSet.insert b1 w
    return ((), b2)
  else return ((), b)

/-- **C132, erasing another element than the one that is visited (negation).** In every set: if the first turn of a range-based `for` erases
the element after it, the last element is visited twice; if it erases the last element, that one is visited although it is not in the set. -/
theorem C132_erase_other_violated {N : Nat} {b : Buf α} {a y z : α} {mid : List α} :
    (elems b = .ok (a :: y :: (mid ++ [z])) → (a :: y :: (mid ++ [z])).Nodup →
      ∃ b', rangeFor (eraseAt a y) () b = .ok (a :: z :: (mid ++ [z]), (), b')) ∧
    (elems b = .ok (a :: (mid ++ [z])) → (a :: (mid ++ [z])).Nodup →
      ∃ b', rangeFor (eraseAt a z) () b = .ok (a :: (mid ++ [z]), (), b') ∧ CxSet.contains b' z = .ok false) := by
  constructor
  · intro hl hn
    have hr := rep_of_elems hl
    obtain ⟨j, hj, hjx, b1, cur1, e1, hs1, hr1, hlen, hperm, _⟩ := eraseKey (fun x : α => x) hr (by simpa using hn)
      (x := y) (by simp)
    have hj1 : j = 1 := (List.getElem_inj (h₀ := hj) (h₁ := by simp) hn).mp (by rw [hjx]; simp)
    subst hj1
    obtain ⟨_, hsz, st, he⟩ := hr
    have hst : b1.storage = [a] ++ (z :: (mid ++ [z])) ++ st := by
      rw [hs1, he]
      simp [List.getElem_cons, List.getElem_append]
    have hidle := rangeLoop_idle (body := eraseAt a y) (s := ()) (b := b1) (z :: (mid ++ [z])) [a] st hst (by
      intro x hx
      have : x ≠ a := by
        rintro rfl
        rw [List.nodup_cons] at hn
        apply hn.1
        simp at hx ⊢
        grind
      simp [eraseAt, this])
    refine ⟨b1, ?_⟩
    unfold rangeFor
    rw [hsz]
    have hget : arrGet b.storage 0 = .ok a := by rw [arrGet_ok, he]; simp
    simp only [List.length_cons, List.length_append, List.length_nil, Nat.zero_add] at hidle ⊢
    rw [rangeLoop, hget]
    have hbody : eraseAt a y () b a = .ok ((), b1) := by
      simp only [eraseAt, ↓reduceIte, CxSet.erase]
      rw [e1]; rfl
    simp [hbody, hidle]
  · intro hl hn
    have hr := rep_of_elems hl
    obtain ⟨j, hj, hjx, b1, cur1, e1, hs1, hr1, hlen, hperm, _⟩ := eraseKey (fun x : α => x) hr (by simpa using hn)
      (x := z) (by simp)
    have hj1 : j = mid.length + 1 := (List.getElem_inj (h₀ := hj) (h₁ := by simp) hn).mp (by rw [hjx]; simp)
    subst hj1
    obtain ⟨_, hsz, st, he⟩ := hr
    have hst : b1.storage = [a] ++ (mid ++ [z]) ++ st := by
      rw [hs1, he]
      simp [List.getElem_cons, List.getElem_append, List.set_append]
    have hidle := rangeLoop_idle (body := eraseAt a z) (s := ()) (b := b1) (mid ++ [z]) [a] st hst (by
      intro x hx
      have : x ≠ a := by
        rintro rfl
        rw [List.nodup_cons] at hn
        exact hn.1 hx
      simp [eraseAt, this])
    refine ⟨b1, ?_, ?_⟩
    · unfold rangeFor
      rw [hsz]
      have hget : arrGet b.storage 0 = .ok a := by rw [arrGet_ok, he]; simp
      simp only [List.length_cons, List.length_append, List.length_nil, Nat.zero_add] at hidle ⊢
      rw [rangeLoop, hget]
      have hbody : eraseAt a z () b a = .ok ((), b1) := by
        simp only [eraseAt, ↓reduceIte, CxSet.erase]
        rw [e1]; rfl
      simp [hbody, hidle]
    · rw [CxSet.contains_rep hr1]
      have := hperm.nodup_iff.mpr hn
      rw [List.nodup_cons] at this
      simp [this.1]

/-- **C132, erasing the visited element and inserting another (negation).** In every set of at least two elements: if the first turn of a
range-based `for` erases its element and inserts a new one, the new one is visited and the last element never is, although it is in the set
all the time. -/
theorem C132_replace_violated {b : Buf α} {a z w : α} {mid : List α} (hN : b.storage.length < szMod)
    (hl : elems b = .ok (a :: (mid ++ [z]))) (hn : (a :: (mid ++ [z])).Nodup) (hw : w ∉ a :: (mid ++ [z])) :
    ∃ b', rangeFor (replaceAt a w) () b = .ok (a :: (mid ++ [w]), (), b') ∧ CxSet.contains b' z = .ok true ∧
      z ∉ a :: (mid ++ [w]) := by
  have hr := rep_of_elems hl
  have hle := hr.le
  obtain ⟨j, hj, hjx, b1, cur1, e1, hs1, hr1, hlen, hperm, _⟩ := eraseKey (fun x : α => x) hr (by simpa using hn)
    (x := a) (by simp)
  have hj1 : j = 0 := (List.getElem_inj (h₀ := hj) (h₁ := by simp) hn).mp (by rw [hjx]; simp)
  subst hj1
  have hwc : w ∉ cur1 := fun h => hw (hperm.mem_iff.mp (by simp [h]))
  obtain ⟨b2, l2, e2, hr2, hl2⟩ := CxSet.insert_rep hN hr1 w (.inr (by omega))
  have e2' : b2.storage = b1.storage.set (mid.length + 1) w := by
    have h1 := hr1.size
    unfold CxSet.insert at e2
    rw [CxSet.contains_rep hr1] at e2
    simp only [hwc, decide_false, Outcome.ok_bind, Bool.false_eq_true, ↓reduceIte, Outcome.bind_eq_ok, Buf.append] at e2
    obtain ⟨b3, ⟨st3, h2, h3⟩, h4⟩ := e2
    simp at h3 h4
    subst h3
    subst h4
    simp at hlen
    have hsz : b1.size = mid.length + 1 := by omega
    have hcap := hr1.cap
    rw [hsz, arrSet_of_lt (by rw [hcap]; simp at hle; omega)] at h2
    simp at h2
    simp [← h2]
  obtain ⟨_, hsz, st, he⟩ := hr
  have hst : b2.storage = [z] ++ (mid ++ [w]) ++ st := by
    rw [e2', hs1, he]
    simp [List.getElem_cons, List.getElem_append, List.set_append]
  have hidle := rangeLoop_idle (body := replaceAt a w) (s := ()) (b := b2) (mid ++ [w]) [z] st hst (by
    intro x hx
    have : x ≠ a := by
      rintro rfl
      rw [List.nodup_cons] at hn
      simp at hx hn hw
      rcases hx with hx | hx
      · exact hn.1.1 hx
      · exact hw.1 hx.symm
    simp [replaceAt, this])
  have hza : z ≠ a := by
    rintro rfl
    rw [List.nodup_cons] at hn
    exact hn.1 (by simp)
  refine ⟨b2, ?_, ?_, ?_⟩
  · unfold rangeFor
    rw [hsz]
    have hget : arrGet b.storage 0 = .ok a := by rw [arrGet_ok, he]; simp
    simp only [List.length_cons, List.length_append, List.length_nil, Nat.zero_add] at hidle ⊢
    rw [rangeLoop, hget]
    have hbody : replaceAt a w () b a = .ok ((), b2) := by
      simp only [replaceAt, ↓reduceIte, CxSet.erase]
      rw [e1]
      simp [e2]
    simp [hbody, hidle]
  · rw [CxSet.contains_rep hr2]
    have hzc : z ∈ cur1 := by
      have := hperm.mem_iff (a := z)
      simp [hza] at this
      exact this
    simp [hl2, hwc, hzc]
  · have := hn
    simp only [List.nodup_cons, List.nodup_append] at this
    simp at hw ⊢
    grind

/-- Sets and elements as in the two theorems. -/
example : elems (⟨[1, 2, 3, 4, 0], 4⟩ : Buf Nat) = .ok (1 :: 2 :: ([3] ++ [4])) ∧ (1 :: 2 :: ([3] ++ [4])).Nodup ∧
    rangeFor (eraseAt 1 2) () (⟨[1, 2, 3, 4, 0], 4⟩ : Buf Nat) = .ok ([1, 4, 3, 4], (), ⟨[1, 4, 3, 4, 0], 3⟩) ∧
    rangeFor (eraseAt 1 4) () (⟨[1, 2, 3, 4, 0], 4⟩ : Buf Nat) = .ok ([1, 2, 3, 4], (), ⟨[1, 2, 3, 4, 0], 3⟩) ∧
    rangeFor (replaceAt 1 9) () (⟨[1, 2, 3, 4, 0], 4⟩ : Buf Nat) = .ok ([1, 2, 3, 9], (), ⟨[4, 2, 3, 9, 0], 4⟩) ∧
    9 ∉ [1, 2, 3, 4] := by decide

/-! ## Iterators and erase -/

/-- Once the iterator is behind `end()`, the loop that erases runs out of the array. -/
theorem iter_past_aux (p : α → Bool) {N : Nat} (rem : Nat) :
    ∀ (i : Nat) (b : Buf α) (cur : List α), Rep N b cur → cur.Nodup → cur.length < i → i + rem = N →
      iterLoop (setEraseBody p) i rem () b = .ub := by
  induction rem with
  | zero =>
    intro i b cur hr _ hlt _
    have : ¬ i = b.size := by rw [hr.size]; omega
    simp [iterLoop, this]
  | succ rem ih =>
    intro i b cur hr hn hlt hi
    have hne : ¬ i = b.size := by rw [hr.size]; omega
    have hib : i < b.storage.length := by rw [hr.cap]; omega
    have hget : arrGet b.storage i = .ok b.storage[i] := by rw [arrGet_ok]; simp [hib]
    simp only [iterLoop, if_neg hne, hget, Outcome.ok_bind, setEraseBody]
    split
    · obtain ⟨b1, l1, e1, hr1, hn1, _, hlen⟩ := CxSet.erase_rep hr hn b.storage[i]
      simp [e1, ih (i + 1) b1 l1 hr1 hn1 (by omega) (by omega)]
    · simp [ih (i + 1) b cur hr hn (by omega) (by omega)]

/-- The turns before the first element that is erased. -/
theorem iter_keep_aux (p : α → Bool) {N : Nat} {b : Buf α} {l : List α} (hr : Rep N b l) {rest : List α} (hrest : rest ≠ [])
    (mid : List α) : ∀ (pre : List α), l = pre ++ mid ++ rest → (∀ x ∈ mid, p x = false) → ∀ rem,
      iterLoop (setEraseBody p) pre.length (mid.length + rem) () b = (do
        let (tr, r) ← iterLoop (setEraseBody p) (pre.length + mid.length) rem () b
        return (mid ++ tr, r)) := by
  induction mid with
  | nil =>
    intro pre _ _ rem
    simp only [List.length_nil, Nat.zero_add, Nat.add_zero, List.nil_append]
    cases iterLoop (setEraseBody p) pre.length rem () b <;> rfl
  | cons x mid ih =>
    intro pre hl hm rem
    have hne : ¬ pre.length = b.size := by rw [hr.size, hl]; simp
    have hget : arrGet b.storage pre.length = .ok x := by
      rw [hr.get (i := pre.length) (by rw [hl]; simp)]; simp [hl]
    have := ih (pre ++ [x]) (by simp [hl]) (fun y hy => hm y (by simp [hy])) rem
    simp only [List.length_append, List.length_singleton] at this
    rw [show (x :: mid).length + rem = (mid.length + rem) + 1 by simp; omega]
    simp only [iterLoop, if_neg hne, hget, Outcome.ok_bind, setEraseBody, hm x (by simp), Bool.false_eq_true, ↓reduceIte,
      Outcome.pure_eq_ok]
    rw [this, show pre.length + 1 + mid.length = pre.length + (x :: mid).length by simp; omega]
    cases iterLoop (setEraseBody p) (pre.length + (x :: mid).length) rem () b <;> rfl

/-- **C132, `for (auto it = s.begin(); it != s.end(); ++it) { if (p(*it)) s.erase(*it); }` (negation).** In every set: if the only element
that is to be erased is the last one, the behaviour is undefined; and if it is the one before the last, the last one is not visited,
so it stays in the set whatever `p` says. -/
theorem C132_iter_erase_undefined {N : Nat} {b : Buf α} (p : α → Bool) (hN : b.storage.length = N) {pre : List α} {x : α}
    (hp : ∀ y ∈ pre, p y = false) (hx : p x = true) :
    (elems b = .ok (pre ++ [x]) → (pre ++ [x]).Nodup → iterFor (setEraseBody p) () b = .ub) ∧
    (∀ z, elems b = .ok (pre ++ [x, z]) → (pre ++ [x, z]).Nodup →
      ∃ b', iterFor (setEraseBody p) () b = .ok (pre ++ [x], (), b') ∧ elems b' = .ok (pre ++ [z])) := by
  constructor
  · intro hl hn
    have hr := rep_of_elems hl
    rw [hN] at hr
    have hle := hr.le
    simp at hle
    unfold iterFor
    rw [hN, show N = pre.length + ((N - pre.length - 1) + 1) by omega]
    have := iter_keep_aux p hr (rest := [x]) (by simp) pre [] (by simp) hp ((N - pre.length - 1) + 1)
    simp only [List.length_nil, Nat.zero_add] at this
    rw [this]
    have hne : ¬ pre.length = b.size := by rw [hr.size]; simp
    have hget : arrGet b.storage pre.length = .ok x := by
      rw [hr.get (i := pre.length) (by simp)]; simp
    obtain ⟨b1, l1, e1, hr1, hn1, _, hlen⟩ := CxSet.erase_rep hr hn x
    simp at hlen
    have hub := iter_past_aux p (N - pre.length - 1) (pre.length + 1) b1 l1 hr1 hn1 (by omega) (by omega)
    simp [iterLoop, hne, hget, setEraseBody, hx, e1, hub]
  · intro z hl hn
    have hr := rep_of_elems hl
    rw [hN] at hr
    have hle := hr.le
    simp at hle
    have hne : ¬ pre.length = b.size := by rw [hr.size]; simp
    have hget : arrGet b.storage pre.length = .ok x := by
      rw [hr.get (i := pre.length) (by simp)]; simp
    obtain ⟨j, hj, hjx, b1, cur1, e1, hs1, hr1, hlen, hperm, hbef⟩ := eraseKey (fun x : α => x) hr (by simpa using hn)
      (x := x) (by simp)
    have hj1 : j = pre.length := (List.getElem_inj (h₀ := hj) (h₁ := by simp) hn).mp (by rw [hjx]; simp)
    subst hj1
    have hsz := hr1.size
    simp at hlen
    have hcur : cur1 = pre ++ [z] := by
      obtain ⟨_, _, st, he⟩ := hr
      obtain ⟨_, _, st1, he1⟩ := hr1
      have : cur1 ++ st1 = (pre ++ [z]) ++ (z :: st) := by
        rw [← he1, hs1, he]
        simp [List.getElem_append, List.set_append]
      exact (List.append_inj this (by simp; omega)).1
    refine ⟨b1, ?_, by rw [hr1.elems, hcur]⟩
    unfold iterFor
    rw [hN, show N = pre.length + (((N - pre.length - 2) + 1) + 1) by omega]
    have := iter_keep_aux p hr (rest := [x, z]) (by simp) pre [] (by simp) hp (((N - pre.length - 2) + 1) + 1)
    simp only [List.length_nil, Nat.zero_add] at this
    rw [this, iterLoop]
    have hend : pre.length + 1 = b1.size := by omega
    have hbody : setEraseBody p () b x = .ok ((), b1) := by
      simp only [setEraseBody, hx, ↓reduceIte, CxSet.erase]
      rw [e1]; rfl
    simp [hne, hget, hbody, iterLoop, hend]

/-- Both cases, in sets of the same elements. -/
example : elems (⟨[1, 2, 3, 0], 3⟩ : Buf Nat) = .ok ([1, 2] ++ [3]) ∧ elems (⟨[1, 2, 3, 0], 3⟩ : Buf Nat) = .ok ([1] ++ [2, 3]) ∧
    ([1, 2] ++ [3] : List Nat).Nodup ∧
    iterFor (setEraseBody (fun x => x == 3)) () (⟨[1, 2, 3, 0], 3⟩ : Buf Nat) = .ub ∧
    iterFor (setEraseBody (fun x => decide (2 ≤ x))) () (⟨[1, 2, 3, 0], 3⟩ : Buf Nat) = .ok ([1, 2], (), ⟨[1, 3, 3, 0], 2⟩) := by
  decide

/-- **C132, sets.** `for (auto it = s.begin(); it != s.end();) { if (p(*it)) s.erase(*it); else ++it; }` visits every element exactly once, in
some order, and leaves exactly the elements for which `p` is false. -/
theorem C132_set_purge {N : Nat} {b : Buf α} {s : CxSet.Abs α} (h : CxSet.SRep N b s) (p : α → Bool) :
    ∃ tr b' s', purge p CxSet.erase b = .ok (tr, b') ∧ tr.Nodup ∧ (∀ x, x ∈ tr ↔ s.mem x) ∧
      CxSet.SRep N b' s' ∧ ∀ x, s'.mem x ↔ s.mem x ∧ p x = false := by
  obtain ⟨l, hr, hn, hm, hc⟩ := h
  obtain ⟨tr, b', cur', e, h1, h2, h3⟩ := purge_aux (fun x : α => x) p (N := N) CxSet.erase (fun b x => rfl) l.length [] l b
    (by simpa using hr) (by simpa using hn) rfl
  refine ⟨tr, b', ⟨(· ∈ cur'), cur'.length⟩, by unfold purge; rw [hr.size]; exact e, h1.nodup_iff.mpr hn,
    fun x => by rw [h1.mem_iff, hm], ⟨cur', h2, h3.nodup_iff.mpr (hn.sublist (by simp)), fun _ => Iff.rfl, rfl⟩, fun x => ?_⟩
  simp only [h3.mem_iff, hm]
  simp

/-- **C132, maps.** The same loop over a map, with `m.erase(it->key)`. -/
theorem C132_map_purge {N : Nat} {b : Buf (κ × ν)} {m : CxMap.Abs κ ν} (h : CxMap.MRep N b m) (p : κ × ν → Bool) :
    ∃ tr b' m', purge p (fun b e => CxMap.erase b e.1) b = .ok (tr, b') ∧ (tr.map Prod.fst).Nodup ∧
      (∀ k v, (k, v) ∈ tr ↔ m.fn k = some v) ∧ CxMap.MRep N b' m' ∧
      ∀ k v, m'.fn k = some v ↔ m.fn k = some v ∧ p (k, v) = false := by
  obtain ⟨l, hr, hn, hm, hc⟩ := h
  obtain ⟨tr, b', cur', e, h1, h2, h3⟩ := purge_aux (Prod.fst : κ × ν → κ) p (N := N) (fun b e => CxMap.erase b e.1)
    (fun b x => rfl) l.length [] l b (by simpa using hr) (by simpa using hn) rfl
  have hn' : (cur'.map Prod.fst).Nodup := by
    rw [(h3.map Prod.fst).nodup_iff]
    exact List.Nodup.sublist (List.Sublist.map _ (by simp)) hn
  refine ⟨tr, b', ⟨fun k => (cur'.find? (fun e => e.1 == k)).map Prod.snd, cur'.length⟩, by unfold purge; rw [hr.size]; exact e,
    (h1.map Prod.fst).nodup_iff.mpr hn, fun k v => by rw [h1.mem_iff, hm], ⟨cur', h2, hn', fun k v => find_pair hn' k v, rfl⟩, ?_⟩
  intro k v
  rw [find_pair hn' k v, h3.mem_iff, hm]
  simp

/-- A set and a map from which some elements are erased. -/
example :
    CxSet.SRep 5 (⟨[3, 4, 5, 9, 0], 4⟩ : Buf Nat) ⟨(· ∈ [3, 4, 5, 9]), 4⟩ ∧
    purge (fun x => x % 3 == 0) CxSet.erase (⟨[3, 4, 5, 9, 0], 4⟩ : Buf Nat) = .ok ([3, 9, 5, 4], ⟨[5, 4, 5, 9, 0], 2⟩) ∧
    purge (fun e => e.1 % 2 == 1) (fun b e => CxMap.erase b e.1) (⟨[(1, 10), (2, 20), (3, 30)], 3⟩ : Buf (Nat × Nat)) =
      .ok ([(1, 10), (3, 30), (2, 20)], ⟨[(2, 20), (2, 20), (3, 30)], 1⟩) :=
  ⟨⟨[3, 4, 5, 9], ⟨rfl, rfl, [0], rfl⟩, by decide, fun _ => Iff.rfl, rfl⟩, by decide, by decide⟩

/-! ## Taking the elements out -/

/-- **C132, draining.** `while (not c.empty()) { body(c.pop_back()); }` visits every element exactly once, from the last to the first, and leaves
the container empty. -/
theorem C132_drain {body : σ → ε → Outcome σ} {f : σ → ε → σ} (hb : ∀ s x, body s x = .ok (f s x)) (s : σ) {b : Buf ε} {l : List ε}
    (hl : elems b = .ok l) :
    ∃ b', drain body s b = .ok (l.reverse, l.reverse.foldl f s, b') ∧ elems b' = .ok [] := by
  have aux : ∀ (r : List ε) (s : σ) (b : Buf ε) (N : Nat), Rep N b r.reverse →
      ∃ b', drainLoop body r.length s b = .ok (r, r.foldl f s, b') ∧ Rep N b' [] := by
    intro r
    induction r with
    | nil => intro s b N hr; exact ⟨b, by simp [drainLoop, hr.size], hr⟩
    | cons x r ih =>
      intro s b N hr
      have hne : ¬ b.size = 0 := by rw [hr.size]; simp
      simp only [List.reverse_cons] at hr
      obtain ⟨b1, e1, hr1⟩ := hr.popBack
      obtain ⟨b', e, h⟩ := ih (f s x) b1 N hr1
      exact ⟨b', by simp [drainLoop, hne, e1, hb, e], h⟩
  have hr := rep_of_elems hl
  obtain ⟨b', e, h⟩ := aux l.reverse s b _ (by simpa using hr)
  exact ⟨b', by unfold drain; rw [hr.size]; simpa using e, h.elems⟩

/-- A set that is drained into a sum. -/
example : drain (fun s x => .ok (2 * s + x)) 0 (⟨[1, 2, 3, 0], 3⟩ : Buf Nat) = .ok ([3, 2, 1], 17, ⟨[1, 2, 3, 0], 0⟩) := by decide

/-! ## Inserting into a set -/

theorem range_insert_aux {N : Nat} (hN : N < szMod) (g : α → List α) {l : List α}
    (hroom : ∀ ys : List α, ys.Nodup → (∀ y ∈ ys, y ∈ l ∨ ∃ x ∈ l, y ∈ g x) → ys.length ≤ N) (rest : List α) :
    ∀ (pre ext : List α) (b : Buf α), l = pre ++ rest → Rep N b (l ++ ext) → (l ++ ext).Nodup →
      (∀ y ∈ ext, ∃ x ∈ pre, y ∈ g x) → (∀ x ∈ pre, ∀ y ∈ g x, y ∈ l ++ ext) →
      ∃ b' ext', rangeLoop (setInsertBody g) pre.length rest.length () b = .ok (rest, (), b') ∧ Rep N b' (l ++ ext') ∧
        (l ++ ext').Nodup ∧ ∀ y, y ∈ l ++ ext' ↔ y ∈ l ∨ ∃ x ∈ l, y ∈ g x := by
  induction rest with
  | nil =>
    intro pre ext b hl hr hn h1 h2
    simp at hl; subst hl
    refine ⟨b, ext, rfl, hr, hn, fun y => ?_⟩
    constructor
    · intro hy
      rcases List.mem_append.mp hy with h | h
      · exact .inl h
      · exact .inr (h1 y h)
    · rintro (h | ⟨x, hx, hy⟩)
      · simp [h]
      · exact h2 x hx y hy
  | cons x rest ih =>
    intro pre ext b hl hr hn h1 h2
    have hget : arrGet b.storage pre.length = .ok x := by
      rw [hr.get (i := pre.length) (by simp [hl])]; simp [hl]
    have hxl : x ∈ l := by simp [hl]
    have hpl : ∀ y ∈ pre, y ∈ l := fun y hy => by simp [hl, hy]
    obtain ⟨b1, ys, e1, hr1, hn1, hy⟩ := CxSet.merge_rep hN (g x) hr hn (fun ys hys hm => by
      have := hroom ((l ++ ext) ++ ys) (by
        rw [List.nodup_append]
        exact ⟨hn, hys, fun a ha c hc h => (hm c hc).2 (h ▸ ha)⟩) (by
        intro y hy
        simp only [List.mem_append] at hy
        rcases hy with (h | h) | h
        · exact .inl h
        · obtain ⟨a, ha, hya⟩ := h1 y h
          exact .inr ⟨a, hpl a ha, hya⟩
        · exact .inr ⟨x, hxl, (hm y h).1⟩)
      simp at this ⊢; omega)
    obtain ⟨b', ext', e, h3, h4, h5⟩ := ih (pre ++ [x]) (ext ++ ys) b1 (by simp [hl]) (by simpa using hr1) (by simpa using hn1)
      (by
        intro y hy'
        rcases List.mem_append.mp hy' with h | h
        · obtain ⟨a, ha, hya⟩ := h1 y h
          exact ⟨a, by simp [ha], hya⟩
        · exact ⟨x, by simp, ((hy y).mp h).1⟩)
      (by
        intro a ha y hya
        rcases List.mem_append.mp ha with h | h
        · have := h2 a h y hya
          simp at this ⊢
          grind
        · simp at h; subst h
          by_cases hyl : y ∈ l ++ ext
          · simp at hyl ⊢; grind
          · have := (hy y).mpr ⟨hya, hyl⟩
            simp [this])
    refine ⟨b', ext', ?_, h3, h4, h5⟩
    simp only [List.length_append, List.length_singleton] at e
    simp [rangeLoop, hget, setInsertBody, e1, e]

/-- **C132, inserting during a range-based `for`.** `for (auto const &x : s) { for (auto const &y : g(x)) s.insert(y); }` visits exactly the
elements that were in the set, each once, and leaves them together with everything that `g` gives for them, if all that fits. -/
theorem C132_set_insert {N : Nat} (hN : N < szMod) {b : Buf α} {s : CxSet.Abs α} (h : CxSet.SRep N b s) (g : α → List α)
    (hroom : ∀ ys : List α, ys.Nodup → (∀ y ∈ ys, s.mem y ∨ ∃ x, s.mem x ∧ y ∈ g x) → ys.length ≤ N) :
    ∃ tr b' s', rangeFor (setInsertBody g) () b = .ok (tr, (), b') ∧ tr.Nodup ∧ (∀ x, x ∈ tr ↔ s.mem x) ∧
      CxSet.SRep N b' s' ∧ ∀ y, s'.mem y ↔ s.mem y ∨ ∃ x, s.mem x ∧ y ∈ g x := by
  obtain ⟨l, hr, hn, hm, hc⟩ := h
  obtain ⟨b', ext', e, h1, h2, h3⟩ := range_insert_aux hN g (l := l)
    (fun ys hys hy => hroom ys hys (fun y h => by
      rcases hy y h with h | ⟨x, hx, h⟩
      · exact .inl ((hm y).mpr h)
      · exact .inr ⟨x, (hm x).mpr hx, h⟩)) l [] [] b rfl (by simpa using hr) (by simpa using hn) (by simp) (by simp)
  refine ⟨l, b', ⟨(· ∈ l ++ ext'), (l ++ ext').length⟩, by unfold rangeFor; rw [hr.size]; exact e, hn, fun x => (hm x).symm,
    ⟨_, h1, h2, fun _ => Iff.rfl, rfl⟩, fun y => ?_⟩
  show y ∈ l ++ ext' ↔ _
  rw [h3]
  simp only [hm]

theorem closure_aux {N : Nat} (hN : N < szMod) (g : α → List α) (s : α → Prop) (rem : Nat) :
    ∀ (i : Nat) (b : Buf α) (l : List α), Rep N b l → l.Nodup → i ≤ l.length → i + rem = N → (∀ x ∈ l, Reach g s x) →
      (∀ x ∈ l.take i, ∀ y ∈ g x, y ∈ l) →
      (iterLoop (setInsertBody g) i rem () b = .ub ∧ ∃ ys : List α, ys.Nodup ∧ (∀ y ∈ ys, Reach g s y) ∧ N < ys.length) ∨
      ∃ b' ext, iterLoop (setInsertBody g) i rem () b = .ok ((l ++ ext).drop i, (), b') ∧ Rep N b' (l ++ ext) ∧
        (l ++ ext).Nodup ∧ (∀ x ∈ l ++ ext, Reach g s x) ∧ ∀ x ∈ l ++ ext, ∀ y ∈ g x, y ∈ l ++ ext := by
  induction rem with
  | zero =>
    intro i b l hr hn hi hiN h1 h2
    have hle := hr.le
    have hil : i = l.length := by omega
    refine .inr ⟨b, [], by simp [iterLoop, hr.size, hil], by simpa using hr, by simpa using hn, by simpa using h1, ?_⟩
    simpa [hil] using h2
  | succ rem ih =>
    intro i b l hr hn hi hiN h1 h2
    by_cases hil : i = l.length
    · refine .inr ⟨b, [], by simp [iterLoop, hr.size, hil], by simpa using hr, by simpa using hn, by simpa using h1, ?_⟩
      simpa [hil] using h2
    · have hlt : i < l.length := by omega
      have hne : ¬ i = b.size := by rw [hr.size]; exact hil
      have hget := hr.get hlt
      by_cases hroom : ∀ ys : List α, ys.Nodup → (∀ y ∈ ys, y ∈ g l[i] ∧ y ∉ l) → l.length + ys.length ≤ N
      · obtain ⟨b1, ys, e1, hr1, hn1, hy⟩ := CxSet.merge_rep hN (g l[i]) hr hn hroom
        have hx : Reach g s l[i] := h1 _ (List.getElem_mem _)
        rcases ih (i + 1) b1 (l ++ ys) hr1 hn1 (by simp; omega) (by omega)
          (by
            intro x hx'
            rcases List.mem_append.mp hx' with h | h
            · exact h1 x h
            · exact .step hx ((hy x).mp h).1)
          (by
            intro x hx' y hyx
            rw [List.take_append_of_le_length (by omega), List.take_succ, List.getElem?_eq_getElem hlt] at hx'
            simp only [Option.toList_some, List.mem_append, List.mem_singleton] at hx'
            rcases hx' with h | h
            · exact List.mem_append_left _ (h2 x h y hyx)
            · subst h
              by_cases hyl : y ∈ l
              · exact List.mem_append_left _ hyl
              · exact List.mem_append_right _ ((hy y).mpr ⟨hyx, hyl⟩)) with ⟨e, h⟩ | ⟨b', ext, e, h3, h4, h5, h6⟩
        · exact .inl ⟨by simp [iterLoop, hne, hget, setInsertBody, e1, e], h⟩
        · refine .inr ⟨b', ys ++ ext, ?_, by simpa using h3, by simpa using h4, by simpa using h5, by simpa using h6⟩
          have hd : (l ++ (ys ++ ext)).drop i = l[i] :: ((l ++ (ys ++ ext)).drop (i + 1)) := by
            rw [List.drop_eq_getElem_cons (by simp; omega)]
            simp [hlt]
          rw [hd]
          simp only [List.append_assoc] at e
          simp [iterLoop, hne, hget, setInsertBody, e1, e]
      · simp only [Classical.not_forall, Nat.not_le] at hroom
        obtain ⟨ys, hys, hm, hlen⟩ := hroom
        refine .inl ⟨by simp [iterLoop, hne, hget, setInsertBody, CxSet.merge_ub hN (g l[i]) hr ys hys hm hlen],
          l ++ ys, ?_, ?_, by simpa using hlen⟩
        · rw [List.nodup_append]
          exact ⟨hn, hys, fun a ha c hc h => (hm c hc).2 (h ▸ ha)⟩
        · intro y hy
          rcases List.mem_append.mp hy with h | h
          · exact h1 y h
          · exact .step (h1 _ (List.getElem_mem _)) (hm y h).1

/-- **C132, inserting during a loop over iterators.** `for (auto it = s.begin(); it != s.end(); ++it) { for (auto const &y : g(*it)) s.insert(y); }`
ends with exactly the elements that can be reached from those of the set by steps of `g`, each of them visited once, if all of them fit;
otherwise it is undefined. -/
theorem C132_set_closure {N : Nat} (hN : N < szMod) {b : Buf α} {s : CxSet.Abs α} (h : CxSet.SRep N b s) (g : α → List α) :
    ((∀ ys : List α, ys.Nodup → (∀ y ∈ ys, Reach g s.mem y) → ys.length ≤ N) →
      ∃ tr b' s', iterFor (setInsertBody g) () b = .ok (tr, (), b') ∧ tr.Nodup ∧ (∀ x, x ∈ tr ↔ Reach g s.mem x) ∧
        elems b' = .ok tr ∧ CxSet.SRep N b' s' ∧ ∀ y, s'.mem y ↔ Reach g s.mem y) ∧
    ((∃ ys : List α, ys.Nodup ∧ (∀ y ∈ ys, Reach g s.mem y) ∧ N < ys.length) → iterFor (setInsertBody g) () b = .ub) := by
  obtain ⟨l, hr, hn, hm, hc⟩ := h
  have hd := closure_aux hN g s.mem N 0 b l hr hn (Nat.zero_le _) (by simp) (fun x hx => .start ((hm x).mpr hx)) (by simp)
  have hiter : iterFor (setInsertBody g) () b = iterLoop (setInsertBody g) 0 N () b := by unfold iterFor; rw [hr.cap]
  have complete : ∀ {ext : List α}, (∀ x ∈ l ++ ext, ∀ y ∈ g x, y ∈ l ++ ext) → ∀ x, Reach g s.mem x → x ∈ l ++ ext := by
    intro ext h6 x hx
    induction hx with
    | start h => exact List.mem_append_left _ ((hm _).mp h)
    | step _ hy ih => exact h6 _ ih _ hy
  constructor
  · intro hroom
    rcases hd with ⟨_, ys, hys, hy, hlt⟩ | ⟨b', ext, e, h3, h4, h5, h6⟩
    · have := hroom ys hys hy; omega
    · refine ⟨l ++ ext, b', ⟨(· ∈ l ++ ext), (l ++ ext).length⟩, by rw [hiter, e]; simp, h4,
        fun x => ⟨h5 x, complete h6 x⟩, h3.elems, ⟨_, h3, h4, fun _ => Iff.rfl, rfl⟩, fun x => ⟨h5 x, complete h6 x⟩⟩
  · rintro ⟨ys, hys, hy, hlt⟩
    rcases hd with ⟨e, _⟩ | ⟨b', ext, e, h3, h4, h5, h6⟩
    · rw [hiter, e]
    · exfalso
      have hsub : ys.length ≤ (l ++ ext).length := nodup_length_le hys (fun y h => complete h6 y (hy y h))
      have := h3.le
      omega

/-- The numbers that halving and decrementing reaches, in a set with room for them and in one without. -/
example :
    rangeFor (setInsertBody (fun x : Nat => [x / 2, x - 1])) () (⟨[4, 9, 0, 0, 0, 0], 2⟩ : Buf Nat) =
      .ok ([4, 9], (), ⟨[4, 9, 2, 3, 8, 0], 5⟩) ∧
    iterFor (setInsertBody (fun x : Nat => [x / 2])) () (⟨[4, 9, 7, 7, 7, 7], 2⟩ : Buf Nat) =
      .ok ([4, 9, 2, 1, 0], (), ⟨[4, 9, 2, 1, 0, 7], 5⟩) ∧
    iterFor (setInsertBody (fun x : Nat => [x / 2])) () (⟨[4, 9, 7, 7], 2⟩ : Buf Nat) = .ub ∧
    CxSet.SRep 6 (⟨[4, 9, 7, 7, 7, 7], 2⟩ : Buf Nat) ⟨(· ∈ [4, 9]), 2⟩ ∧
    (∀ ys : List Nat, ys.Nodup → (∀ y ∈ ys, Reach (fun x => [x / 2]) (· ∈ [4, 9]) y) → ys.length ≤ 6) := by
  refine ⟨by decide, by decide, by decide, ⟨[4, 9], ⟨rfl, rfl, [7, 7, 7, 7], rfl⟩, by decide, fun _ => Iff.rfl, rfl⟩, ?_⟩
  intro ys hys hy
  have hsub : ∀ y, Reach (fun x => [x / 2]) (· ∈ [4, 9]) y → y ∈ [4, 9, 2, 1, 0] := by
    intro y h
    induction h with
    | start h => simp at h ⊢; omega
    | step _ h ih => simp at h ih ⊢; omega
  exact Nat.le_trans (nodup_length_le hys fun y h => hsub y (hy y h)) (by decide)

end Verif.Loops
