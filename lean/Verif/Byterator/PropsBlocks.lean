import Verif.Byterator.Blocks

/-!
# Byterators of any sequence, and as iterators (C150)
-/

namespace Verif.Byterator

/-! ## Specification -/

/-- Bytes `i` and `j` of the sequence are in the same array. -/
def OneArray (bs : List (List (BitVec 8))) (i j : Nat) : Prop :=
  ∃ pre b post, bs = pre ++ b :: post ∧ pre.flatten.length ≤ i ∧ i < pre.flatten.length + b.length ∧
    pre.flatten.length ≤ j ∧ j < pre.flatten.length + b.length

/-! ## Lemmas -/

theorem place_some {bs : List (List (BitVec 8))} {i : Nat} {p : Nat × Nat} (h : place bs i = some p) :
    ∃ pre b post, bs = pre ++ b :: post ∧ pre.length = p.1 ∧ i = pre.flatten.length + p.2 ∧ p.2 < b.length := by
  induction bs generalizing i p with
  | nil => cases h
  | cons b bs ih =>
    simp only [place] at h
    split at h
    · cases h
      exact ⟨[], b, bs, rfl, rfl, by simp, by assumption⟩
    · rw [Option.map_eq_some_iff] at h
      obtain ⟨q, hq, rfl⟩ := h
      obtain ⟨pre, c, post, rfl, h2, h3, h4⟩ := ih hq
      refine ⟨b :: pre, c, post, rfl, by simp [h2], ?_, h4⟩
      simp only [List.flatten_cons, List.length_append]
      omega

theorem place_append (pre : List (List (BitVec 8))) (b : List (BitVec 8)) (post : List (List (BitVec 8))) {j : Nat} (h : j < b.length) :
    place (pre ++ b :: post) (pre.flatten.length + j) = some (pre.length, j) := by
  induction pre with
  | nil => simp [place, h]
  | cons c pre ih =>
    simp only [List.cons_append, place, List.flatten_cons, List.length_append]
    rw [if_neg (by omega), show c.length + pre.flatten.length + j - c.length = pre.flatten.length + j by omega, ih]
    rfl

theorem split_unique {pre pre' post post' : List (List (BitVec 8))} {b b' : List (BitVec 8)} (h : pre ++ b :: post = pre' ++ b' :: post')
    {i : Nat} (h1 : pre.flatten.length ≤ i) (h2 : i < pre.flatten.length + b.length) (h1' : pre'.flatten.length ≤ i)
    (h2' : i < pre'.flatten.length + b'.length) : pre = pre' ∧ b = b' := by
  have e1 := place_append pre b post (j := i - pre.flatten.length) (by omega)
  have e2 := place_append pre' b' post' (j := i - pre'.flatten.length) (by omega)
  rw [show pre.flatten.length + (i - pre.flatten.length) = i by omega] at e1
  rw [show pre'.flatten.length + (i - pre'.flatten.length) = i by omega] at e2
  rw [h, e2] at e1
  simp only [Option.some.injEq, Prod.mk.injEq] at e1
  have := List.append_inj h e1.1.symm
  exact ⟨this.1, (List.cons.inj this.2).1⟩

theorem flatten_get {pre post : List (List (BitVec 8))} {b : List (BitVec 8)} {j : Nat} (h1 : pre.flatten.length ≤ j)
    (h2 : j < pre.flatten.length + b.length) : (pre ++ b :: post).flatten[j]? = b[j - pre.flatten.length]? := by
  rw [List.flatten_append, List.flatten_cons, List.getElem?_append_right h1, List.getElem?_append_left (by omega)]

/-! ## Theorems -/

/-- **C150, bytes at a distance.** `*(byterator{it} + n)`, for an iterator at any element, is defined exactly if the byte is in the same
array as that element, and then it is that byte of the sequence. -/
theorem C150_byte_iff_partial (bs : List (List (BitVec 8))) (sz k : Nat) (n : Int) (x : BitVec 8) :
    byteFrom bs sz k n = .ok x ↔ ∃ j : Nat, (j : Int) = k * sz + n ∧ OneArray bs (k * sz) j ∧ bs.flatten[j]? = some x := by
  unfold byteFrom ptrOfIter
  cases hp : place bs (k * sz) with
  | none =>
    simp only [Outcome.ub_bind, reduceCtorEq, false_iff]
    rintro ⟨j, -, ⟨pre, b, post, rfl, h1, h2, -⟩, -⟩
    have := place_append pre b post (j := k * sz - pre.flatten.length) (by omega)
    rw [show pre.flatten.length + (k * sz - pre.flatten.length) = k * sz by omega, hp] at this
    cases this
  | some p =>
    obtain ⟨pre, b, post, rfl, h1, h2, h3⟩ := place_some hp
    have hb : (pre ++ b :: post)[p.1]? = some b := by
      rw [← h1, List.getElem?_append_right (Nat.le_refl _)]
      simp
    simp only [Outcome.ok_bind, Ptr.add, hb, ptrAdd]
    have cast : ((k : Int) * sz) = ((k * sz : Nat) : Int) := by push_cast; rfl
    rw [cast]
    generalize k * sz = i at *
    split
    · rename_i hin
      simp only [Outcome.ok_bind, Ptr.get, pure, hb, deref]
      obtain ⟨m, hm⟩ : ∃ m : Nat, (p.2 : Int) + n = m := ⟨((p.2 : Int) + n).toNat, by omega⟩
      rw [hm]
      show arrGet b m = .ok x ↔ _
      unfold arrGet
      constructor
      · intro h
        cases hm' : b[m]? with
        | none => rw [hm'] at h; cases h
        | some y =>
          rw [hm'] at h
          cases h
          obtain ⟨hml, -⟩ := List.getElem?_eq_some_iff.1 hm'
          refine ⟨pre.flatten.length + m, by push_cast; omega, ⟨pre, b, post, rfl, by omega, by omega, by omega, by omega⟩, ?_⟩
          rw [flatten_get (by omega) (by omega), show pre.flatten.length + m - pre.flatten.length = m by omega, hm']
      · rintro ⟨j, hj, ⟨pre', b', post', he, e1, e2, e3, e4⟩, hx⟩
        obtain ⟨rfl, rfl⟩ := split_unique he (by omega) (by omega) e1 e2
        rw [flatten_get e3 e4, show j - pre.flatten.length = m by omega] at hx
        rw [hx]
    · rename_i hout
      simp only [Outcome.ub_bind, reduceCtorEq, false_iff]
      rintro ⟨j, hj, ⟨pre', b', post', he, e1, e2, e3, e4⟩, -⟩
      obtain ⟨rfl, rfl⟩ := split_unique he (by omega) (by omega) e1 e2
      exact hout ⟨by omega, by show _ ≤ (b.length : Int); omega⟩

/-- **C150, otherwise undefined.** In particular a byte in another array cannot be reached, whatever the distance. -/
theorem C150_byte_elsewhere_fails (bs : List (List (BitVec 8))) (sz k j : Nat) (h : ¬ OneArray bs (k * sz) j) :
    byteFrom bs sz k ((j : Int) - k * sz) = .ub := by
  have hnp : byteFrom bs sz k ((j : Int) - k * sz) ≠ .panic := by
    unfold byteFrom ptrOfIter
    cases place bs (k * sz) with
    | none => nofun
    | some p =>
      simp only [Outcome.ok_bind, Ptr.add, ptrAdd]
      cases hb : bs[p.1]? with
      | none => nofun
      | some b =>
        simp only
        split
        · simp only [Outcome.ok_bind, Ptr.get, pure, hb, deref, arrGet]
          repeat' split
          all_goals nofun
        · nofun
  cases hr : byteFrom bs sz k ((j : Int) - k * sz) with
  | ub => rfl
  | panic => exact absurd hr hnp
  | ok x =>
    obtain ⟨j', hj', ho, -⟩ := (C150_byte_iff_partial bs sz k _ x).1 hr
    obtain rfl : j' = j := by omega
    exact absurd ho h

theorem get_at (pre post : List (List (BitVec 8))) (b : List (BitVec 8)) : (pre ++ b :: post)[pre.length]? = some b := by
  rw [List.getElem?_append_right (Nat.le_refl _)]
  simp

theorem walk_ok (pre post : List (List (BitVec 8))) (b : List (BitVec 8)) : ∀ (n o : Nat), o + n ≤ b.length →
    walk (pre ++ b :: post) n ⟨pre.length, o⟩ = .ok ((b.drop o).take n)
  | 0, o, _ => by simp [walk]
  | n + 1, o, h => by
    have hg : Ptr.get (pre ++ b :: post) ⟨pre.length, o⟩ = .ok (b[o]'(by omega)) := by
      simp only [Ptr.get, get_at]
      show arrGet b o = _
      simp [arrGet, List.getElem?_eq_getElem (show o < b.length by omega)]
    have ha : Ptr.add (pre ++ b :: post) ⟨pre.length, o⟩ 1 = .ok ⟨pre.length, ((o + 1 : Nat) : Int)⟩ := by
      simp only [Ptr.add, get_at, ptrAdd]
      rw [if_pos ⟨by omega, by show _ ≤ (b.length : Int); omega⟩]
      rfl
    simp only [walk, hg, ha, Outcome.ok_bind, walk_ok pre post b n (o + 1) (by omega), pure]
    rw [List.drop_eq_getElem_cons (show o < b.length by omega), List.take_succ_cons]

theorem walk_ub (pre post : List (List (BitVec 8))) (b : List (BitVec 8)) : ∀ (n o : Nat), o ≤ b.length → b.length < o + n →
    walk (pre ++ b :: post) n ⟨pre.length, o⟩ = .ub
  | 0, o, h, h' => by omega
  | n + 1, o, h, h' => by
    by_cases ho : o < b.length
    · have hg : Ptr.get (pre ++ b :: post) ⟨pre.length, o⟩ = .ok (b[o]'ho) := by
        simp only [Ptr.get, get_at]
        show arrGet b o = _
        simp [arrGet, List.getElem?_eq_getElem ho]
      have ha : Ptr.add (pre ++ b :: post) ⟨pre.length, o⟩ 1 = .ok ⟨pre.length, ((o + 1 : Nat) : Int)⟩ := by
        simp only [Ptr.add, get_at, ptrAdd]
        rw [if_pos ⟨by omega, by show _ ≤ (b.length : Int); omega⟩]
        rfl
      simp only [walk, hg, ha, Outcome.ok_bind, walk_ub pre post b n (o + 1) (by omega) (by omega), Outcome.ub_bind]
    · have hg : Ptr.get (pre ++ b :: post) ⟨pre.length, o⟩ = .ub := by
        simp only [Ptr.get, get_at]
        show arrGet b o = _
        simp [arrGet, List.getElem?_eq_none (show b.length ≤ o by omega)]
      simp only [walk, hg, Outcome.ub_bind]

theorem walkFrom_eq (pre post : List (List (BitVec 8))) (b : List (BitVec 8)) (sz k n : Nat) (h1 : pre.flatten.length ≤ k * sz)
    (h2 : k * sz < pre.flatten.length + b.length) :
    walkFrom (pre ++ b :: post) sz k n = walk (pre ++ b :: post) n ⟨pre.length, (k * sz - pre.flatten.length : Nat)⟩ := by
  have := place_append pre b post (j := k * sz - pre.flatten.length) (by omega)
  rw [show pre.flatten.length + (k * sz - pre.flatten.length) = k * sz by omega] at this
  simp only [walkFrom, ptrOfIter, this, Outcome.ok_bind]

/-- **C150, walking.** Walking over `n` bytes from an element gives these bytes if they are all in the array of that element, as in
arrays, vectors and spans they are. -/
theorem C150_walk_partial (pre post : List (List (BitVec 8))) (b : List (BitVec 8)) (sz k n : Nat) (h1 : pre.flatten.length ≤ k * sz)
    (h2 : k * sz < pre.flatten.length + b.length) (h3 : k * sz + n ≤ pre.flatten.length + b.length) :
    walkFrom (pre ++ b :: post) sz k n = .ok (((pre ++ b :: post).flatten.drop (k * sz)).take n) := by
  rw [walkFrom_eq pre post b sz k n h1 h2, walk_ok pre post b n _ (by omega), List.flatten_append, List.flatten_cons, List.drop_append,
    List.drop_eq_nil_of_le h1, List.nil_append, List.drop_append_of_le_length (by omega),
    List.take_append_of_le_length (by rw [List.length_drop]; omega)]

/-- **C150, walking on.** If they are not, walking is undefined: so it is for every sequence in several arrays, although its iterators are
random access iterators and are accepted. -/
theorem C150_walk_fails (pre post : List (List (BitVec 8))) (b : List (BitVec 8)) (sz k n : Nat) (h1 : pre.flatten.length ≤ k * sz)
    (h2 : k * sz < pre.flatten.length + b.length) (h3 : pre.flatten.length + b.length < k * sz + n) :
    walkFrom (pre ++ b :: post) sz k n = .ub := by
  rw [walkFrom_eq pre post b sz k n h1 h2, walk_ub pre post b n _ (by omega) (by omega)]

/-- Three elements of two bytes, two of them in the first array. -/
def deque : List (List (BitVec 8)) := [[1#8, 2#8, 3#8, 4#8], [5#8, 6#8]]

example : byteFrom deque 2 1 (-1) = .ok 2#8 ∧ byteFrom deque 2 1 2 = .ub ∧ byteFrom deque 2 2 1 = .ok 6#8 := by decide
example : ∃ j : Nat, (j : Int) = (1 : Nat) * (2 : Nat) + -1 ∧ OneArray deque (1 * 2) j ∧ deque.flatten[j]? = some 2#8 :=
  ⟨1, rfl, ⟨[], [1#8, 2#8, 3#8, 4#8], [[5#8, 6#8]], rfl, by decide⟩, rfl⟩
example : ¬ OneArray deque (1 * 2) 4 := by
  rintro ⟨pre, b, post, h, h1, h2, h3, h4⟩
  obtain ⟨rfl, rfl⟩ := split_unique (pre := pre) (post := post) (pre' := []) (post' := [[5#8, 6#8]]) (b' := [1#8, 2#8, 3#8, 4#8])
    h.symm h1 h2 (by decide) (by decide)
  simp at h4
example : walkFrom deque 2 1 2 = .ok [3#8, 4#8] := C150_walk_partial [] [[5#8, 6#8]] [1#8, 2#8, 3#8, 4#8] 2 1 2 (by decide) (by decide) (by decide)
example : walkFrom deque 2 0 6 = .ub := C150_walk_fails [] [[5#8, 6#8]] [1#8, 2#8, 3#8, 4#8] 2 0 6 (by decide) (by decide) (by decide)

/-! ## Requirements of iterators -/

/-- What docs/byterator.adoc says a byterator has: the requirements of random access iterators that depend on types. -/
inductive Requirement where
  /-- Objects can be made without an argument ([forward.iterators]). -/
  | defaultConstructible
  /-- `*i` is a `reference` ([input.iterators]). -/
  | deref
  /-- `i[n]` can be made a `reference`, also if `i` is `const` ([random.access.iterators]). -/
  | index
  /-- `*std::reverse_iterator{i}` is what `*--i` would be ([reverse.iter.elem]). -/
  | reversed
  deriving DecidableEq

/-- Whether a byterator of elements that are `const` or not meets the requirement; here in terms of the types that expressions have. -/
def Requirement.Met (b : BType) : Requirement → Prop
  | .defaultConstructible => b.defaultConstructible = true
  | .deref => b.deref = b.reference
  | .index => ∀ self, (b.index self).bindsTo b.reference = true
  | .reversed => b.reversible = true

/-- **C150, requirements.** Of these requirements, byterators of elements that are not `const` meet two, and those of elements that are
`const`, as in the examples of docs/byterator.adoc, none. -/
theorem C150_requirements_fails (c : Bool) (r : Requirement) :
    r.Met (.ofIter c) ↔ c = false ∧ (r = .deref ∨ r = .reversed) := by
  cases r
  · simp [Requirement.Met, BType.defaultConstructible]
  · cases c <;> simp [Requirement.Met, BType.ofIter, BType.deref, BType.reference]
  · simp [Requirement.Met, BType.ofIter, BType.index, BType.reference, ByteRef.bindsTo]
  · cases c <;> simp [Requirement.Met, BType.ofIter, BType.reversible, BType.deref, BType.reference, ByteRef.bindsTo]

end Verif.Byterator
