import Verif.Tuple.Lemmas

/-! # Tuples: concatenation, filter, cartesian product (C61, C62, C63, C67) -/

namespace Verif.Tuple

variable {α β γ κ σ : Type}

/-! ## The index table -/

theorem fillInner_eq (n : Nat) (i : Nat) (pre post : List IndexPair) :
    fillInner i n (pre ++ (List.replicate n ⟨0, 0⟩ ++ post)) pre.length =
      .ok (pre ++ ((List.range' i n).map (fun j => ⟨0, j⟩) ++ post), pre.length + n) := by
  induction n generalizing i pre with
  | zero => rfl
  | succ n ih =>
    rw [fillInner, List.replicate_succ]
    have hg : arrGet (pre ++ (⟨0, 0⟩ :: List.replicate n ⟨0, 0⟩ ++ post)) pre.length = .ok (⟨0, 0⟩ : IndexPair) := by
      rw [arrGet_ok, List.getElem?_append_right (by omega)]; simp
    rw [hg, Outcome.ok_bind, arrSet_of_lt (by simp), Outcome.ok_bind]
    have he : (pre ++ ((⟨0, 0⟩ : IndexPair) :: List.replicate n ⟨0, 0⟩ ++ post)).set pre.length ⟨0, i⟩ =
        (pre ++ [⟨0, i⟩]) ++ (List.replicate n ⟨0, 0⟩ ++ post) := by simp
    have := ih (i + 1) (pre ++ [⟨0, i⟩])
    rw [List.length_append, List.length_singleton] at this
    rw [he, this, List.range'_succ]
    simp; omega

theorem fillOuter_eq (k n : Nat) (pre mid post : List IndexPair) (hm : mid.length = n) :
    fillOuter k n (pre ++ (mid ++ post)) pre.length =
      .ok (pre ++ (mid.map (fun e => ⟨k, e.inner⟩) ++ post), pre.length + n) := by
  induction n generalizing pre mid with
  | zero => rw [List.eq_nil_of_length_eq_zero hm]; rfl
  | succ n ih =>
    cases mid with
    | nil => simp at hm
    | cons m ms =>
      rw [fillOuter]
      have hg : arrGet (pre ++ (m :: ms ++ post)) pre.length = .ok m := by
        rw [arrGet_ok, List.getElem?_append_right (by omega)]; simp
      rw [hg, Outcome.ok_bind, arrSet_of_lt (by simp), Outcome.ok_bind]
      have he : (pre ++ (m :: ms ++ post)).set pre.length ⟨k, m.inner⟩ = (pre ++ [⟨k, m.inner⟩]) ++ (ms ++ post) := by simp
      have := ih (pre ++ [⟨k, m.inner⟩]) ms (by simpa using hm)
      rw [List.length_append, List.length_singleton] at this
      rw [he, this]
      simp; omega

theorem fillInners_eq (sizes : List Nat) (pre : List IndexPair) :
    fillInners sizes (pre ++ List.replicate sizes.sum ⟨0, 0⟩) pre.length =
      .ok (pre ++ sizes.flatMap fun n => (List.range n).map fun j => ⟨0, j⟩) := by
  induction sizes generalizing pre with
  | nil => simp [fillInners]
  | cons n ns ih =>
    rw [List.sum_cons, ← List.replicate_append_replicate, fillInners, fillInner_eq, Outcome.ok_bind]
    have := ih (pre ++ (List.range' 0 n).map fun j => ⟨0, j⟩)
    rw [List.length_append, List.length_map, List.length_range'] at this
    simp only
    rw [← List.append_assoc, this]
    simp [List.range_eq_range']

/-- The table: for each tuple its number with each of its indices. -/
def table : Nat → List Nat → List IndexPair
  | _, [] => []
  | k, n :: ns => (List.range n).map (fun j => ⟨k, j⟩) ++ table (k + 1) ns

theorem fillOuters_eq (sizes : List Nat) (k : Nat) (pre : List IndexPair) :
    fillOuters sizes k (pre ++ sizes.flatMap fun n => (List.range n).map fun j => ⟨0, j⟩) pre.length =
      .ok (pre ++ table k sizes) := by
  induction sizes generalizing k pre with
  | nil => rfl
  | cons n ns ih =>
    rw [List.flatMap_cons, fillOuters, fillOuter_eq k n _ _ _ (by simp), Outcome.ok_bind]
    have := ih (k + 1) (pre ++ (List.range n).map fun j => ⟨k, j⟩)
    rw [List.length_append, List.length_map, List.length_range] at this
    simp only [List.map_map, Function.comp_def]
    rw [← List.append_assoc, this, table]
    simp

theorem elementIndices_eq (sizes : List Nat) : elementIndices sizes = .ok (table 0 sizes) := by
  unfold elementIndices
  have h1 := fillInners_eq sizes []
  have h2 := fillOuters_eq sizes 0 []
  simp only [List.nil_append, List.length_nil] at h1 h2
  rw [h1, Outcome.ok_bind, h2]

theorem table_length (sizes : List Nat) (k : Nat) : (table k sizes).length = sizes.sum := by
  induction sizes generalizing k with
  | nil => rfl
  | cons n ns ih => simp [table, ih]

theorem mapO_append (f : α → Outcome β) (l m : List α) :
    mapO f (l ++ m) = (mapO f l >>= fun xs => mapO f m >>= fun ys => .ok (xs ++ ys)) := by
  induction l with
  | nil => simp only [List.nil_append, mapO, Outcome.ok_bind]; cases mapO f m <;> rfl
  | cons x xs ih =>
    rw [List.cons_append, mapO, mapO, ih]
    cases f x with
    | ok y =>
      simp only [Outcome.ok_bind]
      cases mapO f xs with
      | ok ys =>
        simp only [Outcome.ok_bind, Outcome.pure_eq_ok]
        cases mapO f m <;> rfl
      | ub => rfl
      | panic => rfl
    | ub => rfl
    | panic => rfl

theorem mapO_map (f : β → Outcome γ) (g : α → β) (l : List α) : mapO f (l.map g) = mapO (fun x => f (g x)) l := by
  induction l with
  | nil => rfl
  | cons x xs ih => rw [List.map_cons, mapO, mapO, ih]

/-- A loop over the indices of an array that reads the array, as a loop over the array. -/
theorem mapO_index (a : List α) (f : α → Outcome β) :
    mapO (fun i => do
      let e ← arrGet a i
      f e) (List.range a.length) = mapO f a := by
  have key : ∀ (l pre : List α), a = pre ++ l → mapO (fun i => do
      let e ← arrGet a i
      f e) (List.range' pre.length l.length) = mapO f l := by
    intro l
    induction l with
    | nil => intro pre _; rfl
    | cons x xs ih =>
      intro pre ha
      rw [List.length_cons, List.range'_succ, mapO, mapO]
      have hg : arrGet a pre.length = .ok x := by
        rw [arrGet_ok, ha, List.getElem?_append_right (by omega)]; simp
      rw [hg, Outcome.ok_bind]
      have := ih (pre ++ [x]) (by simp [ha])
      rw [List.length_append, List.length_singleton] at this
      rw [this]
  have := key a [] rfl
  rw [List.length_nil, ← List.range_eq_range'] at this
  exact this

theorem gather_table (ts : List (List α)) (rest pre : List (List α)) (h : ts = pre ++ rest) :
    mapO (fun e : IndexPair => do
      let t ← get ts e.outer
      get t e.inner) (table pre.length (rest.map List.length)) = .ok rest.flatten := by
  induction rest generalizing pre with
  | nil => rfl
  | cons t rest ih =>
    rw [List.map_cons, table, mapO_append, mapO_map]
    have hg : get ts pre.length = .ok t := by
      unfold get; rw [arrGet_ok, h, List.getElem?_append_right (by omega)]; simp
    simp only [hg, Outcome.ok_bind]
    rw [mapO_get, Outcome.ok_bind]
    have := ih (pre ++ [t]) (by simp [h])
    rw [List.length_append, List.length_singleton] at this
    rw [this, Outcome.ok_bind, List.flatten_cons]

theorem gatherIndices_eq (ts : List (List α)) : gatherIndices ts = .ok ts.flatten := by
  unfold gatherIndices
  rw [elementIndices_eq, Outcome.ok_bind]
  have h := mapO_index (table 0 (ts.map List.length)) (fun e : IndexPair => do
      let t ← get ts e.outer
      get t e.inner)
  rw [table_length] at h
  rw [h]
  exact gather_table ts ts [] rfl

/-! ## C61 -/

theorem tupleCat_eq (ts : List (List α)) : tupleCat ts = .ok ts.flatten := by
  unfold tupleCat
  split
  · rfl
  · simp
  · exact gatherIndices_eq _

/-- **C61.** `tuple_cat` has the elements of its arguments in order, for any number of tuples of any sizes: the element at
index `j` of the `i`-th tuple is at the index that is the sum of the sizes before it plus `j`. -/
theorem C61_tuple_cat (ts : List (List α)) :
    ∃ r, tupleCat ts = .ok r ∧ r.length = (ts.map List.length).sum ∧
      ∀ pre t post, ts = pre ++ t :: post → ∀ j (hj : j < t.length), r[(pre.map List.length).sum + j]? = some t[j] := by
  refine ⟨ts.flatten, tupleCat_eq ts, List.length_flatten, ?_⟩
  intro pre t post h j hj
  rw [h, List.flatten_append, List.flatten_cons, ← List.length_flatten, List.getElem?_append_right (by omega),
    Nat.add_sub_cancel_left, List.getElem?_append_left hj, List.getElem?_eq_getElem hj]

/-- **C61, cons and snoc.** -/
theorem C61_cons_snoc (x : α) (t : List α) :
    tupleCons x t = .ok (x :: t) ∧ tupleSnoc t x = .ok (t ++ [x]) ∧
    tupleCons x t = tupleCat [[x], t] ∧ tupleSnoc t x = tupleCat [t, [x]] := by
  have h1 : tupleCons x t = .ok (x :: t) := by unfold tupleCons; rw [mapO_get]; rfl
  have h2 : tupleSnoc t x = .ok (t ++ [x]) := by unfold tupleSnoc; rw [mapO_get]; rfl
  exact ⟨h1, h2, by rw [h1, tupleCat_eq]; simp, by rw [h2, tupleCat_eq]; simp⟩

/-- `tuple_cat` is associative: concatenating groups of tuples first makes no difference. -/
theorem C61_tuple_cat_assoc (tss : List (List (List α))) :
    (mapO tupleCat tss >>= tupleCat) = tupleCat tss.flatten := by
  rw [mapO_ok (g := List.flatten) (fun ts _ => tupleCat_eq ts), Outcome.ok_bind, tupleCat_eq, tupleCat_eq, List.flatten_flatten]

/-- **C63, apply.** `apply` over several tuples makes one call with all elements, in order. -/
theorem C63_apply (f : List α → σ → β × σ) (ts : List (List α)) (s : σ) : apply f ts s = .ok (f ts.flatten s) := by
  unfold apply; rw [gatherIndices_eq]; rfl

example : tupleCat [[1, 2], [], [3], [4, 5, 6]] = .ok [1, 2, 3, 4, 5, 6] := by decide

/-! ## C62 -/

theorem numMatches_eq (p : α → Bool) (t : List α) : numMatches p t = (t.filter p).length := by
  have key : ∀ (t : List α) (n : Nat), t.foldl (fun n x => n + (if p x then 1 else 0)) n = n + (t.filter p).length := by
    intro t
    induction t with
    | nil => intro n; rfl
    | cons x xs ih =>
      intro n
      rw [List.foldl_cons, ih, List.filter_cons]
      split <;> simp <;> omega
  unfold numMatches; rw [key, Nat.zero_add]

/-- The indices of the satisfying elements. -/
def matchIdx (p : α → Bool) : Nat → List α → List Nat
  | _, [] => []
  | i, x :: xs => if p x then i :: matchIdx p (i + 1) xs else matchIdx p (i + 1) xs

theorem matchIdx_length (p : α → Bool) (i : Nat) (t : List α) : (matchIdx p i t).length = (t.filter p).length := by
  induction t generalizing i with
  | nil => rfl
  | cons x xs ih => rw [matchIdx, List.filter_cons]; split <;> simp [ih]

theorem copyIndices_eq (p : α → Bool) (xs : List α) (i : Nat) (done : List Nat) :
    copyIndices p xs i (done ++ List.replicate (xs.filter p).length 0) done.length = .ok (done ++ matchIdx p i xs) := by
  induction xs generalizing i done with
  | nil => simp [copyIndices, matchIdx]
  | cons x xs ih =>
    rw [copyIndices, matchIdx, List.filter_cons]
    split
    · rw [List.length_cons, List.replicate_succ, arrSet_of_lt (by simp), Outcome.ok_bind]
      have := ih (i + 1) (done ++ [i])
      rw [List.length_append, List.length_singleton] at this
      have he : (done ++ 0 :: List.replicate (xs.filter p).length 0).set done.length i =
          done ++ [i] ++ List.replicate (xs.filter p).length 0 := by simp
      rw [he, this]; simp
    · exact ih (i + 1) done

theorem mapO_matchIdx (p : α → Bool) (t xs pre : List α) (h : t = pre ++ xs) :
    mapO (get t) (matchIdx p pre.length xs) = .ok (xs.filter p) := by
  induction xs generalizing pre with
  | nil => rfl
  | cons x xs ih =>
    have := ih (pre ++ [x]) (by simp [h])
    rw [List.length_append, List.length_singleton] at this
    rw [matchIdx, List.filter_cons]
    split
    · have hg : get t pre.length = .ok x := by
        unfold get; rw [arrGet_ok, h, List.getElem?_append_right (by omega)]; simp
      rw [mapO, hg, Outcome.ok_bind, this]; rfl
    · exact this

/-- **C62.** `filter` keeps exactly the elements whose type satisfies the predicate, in order. -/
theorem C62_filter (p : α → Bool) (t : List α) : filter p t = .ok (t.filter p) := by
  unfold filter
  have h1 := copyIndices_eq p t 0 []
  simp only [List.nil_append, List.length_nil] at h1
  simp only
  rw [numMatches_eq, h1, Outcome.ok_bind]
  have h2 := mapO_index (matchIdx p 0 t) (get t)
  rw [matchIdx_length] at h2
  rw [h2]
  exact mapO_matchIdx p t t [] rfl

/-- **C62, spelled out.** The result is a subsequence of the tuple that contains all satisfying elements and no others. -/
theorem C62_filter_spec (p : α → Bool) (t : List α) :
    ∃ r, filter p t = .ok r ∧ r.Sublist t ∧ (∀ x ∈ r, p x = true) ∧ r.length = t.countP p :=
  ⟨_, C62_filter p t, List.filter_sublist, fun _ h => (List.mem_filter.mp h).2, List.countP_eq_length_filter.symm⟩

example : filter (fun n => n % 2 == 0) [1, 2, 4, 5, 6] = .ok [2, 4, 6] := by decide

/-! ## C67 -/

/-- The combinations, the first choice varying slowest. -/
def product : List (List α) → List (List α)
  | [] => [[]]
  | t :: ts => t.flatMap fun x => (product ts).map (x :: ·)

theorem cartesian_eq (ts : List (List α)) : cartesian ts = .ok (product ts) := by
  induction ts with
  | nil => rfl
  | cons t ts ih =>
    rw [cartesian, ih, Outcome.ok_bind]
    rw [mapO_ok (g := fun x => (product ts).map (x :: ·))]
    · rw [Outcome.ok_bind, tupleCat_eq, product, List.flatMap]
    · intro x _
      exact mapO_ok (g := (x :: ·)) fun sub _ => by rw [tupleCat_eq]; simp

/-- A choice of one index for each tuple. -/
inductive Choice : List (List α) → List Nat → Prop
  | nil : Choice [] []
  | cons {t ts j js} : j < t.length → Choice ts js → Choice (t :: ts) (j :: js)

/-- The place of a choice in the enumeration: the last index varies fastest. -/
def rank : List (List α) → List Nat → Nat
  | _ :: ts, j :: js => j * ((ts.map List.length).prod) + rank ts js
  | _, _ => 0

/-- The elements chosen. -/
def pick : List (List α) → List Nat → List (Option α)
  | t :: ts, j :: js => t[j]? :: pick ts js
  | _, _ => []

theorem product_length (ts : List (List α)) : (product ts).length = (ts.map List.length).prod := by
  induction ts with
  | nil => rfl
  | cons t ts ih =>
    rw [product, List.length_flatMap]
    simp only [List.length_map, ih, List.map_cons, List.prod_cons]
    rw [List.map_const', List.sum_replicate_nat]

theorem flatMap_index {f : α → List β} {m : Nat} (t : List α) (hf : ∀ x ∈ t, (f x).length = m) (j i : Nat) (hj : j < t.length) (hi : i < m) :
    (t.flatMap f)[j * m + i]? = (f t[j])[i]? := by
  induction t generalizing j with
  | nil => simp at hj
  | cons x xs ih =>
    rw [List.flatMap_cons]
    have hx : (f x).length = m := hf x (by simp)
    cases j with
    | zero => rw [Nat.zero_mul, Nat.zero_add, List.getElem?_append_left (by omega)]; rfl
    | succ j =>
      rw [List.getElem?_append_right (by rw [hx, Nat.succ_mul]; omega), hx,
        show (j + 1) * m + i - m = j * m + i by rw [Nat.succ_mul]; omega]
      exact ih (fun y hy => hf y (by simp [hy])) j (by simpa using hj)

theorem rank_lt {ts : List (List α)} {js : List Nat} (h : Choice ts js) : rank ts js < (ts.map List.length).prod := by
  induction h with
  | nil => simp [rank]
  | @cons t ts j js hj _ ih =>
    rw [rank, List.map_cons, List.prod_cons]
    calc j * (ts.map List.length).prod + rank ts js < j * (ts.map List.length).prod + (ts.map List.length).prod := by omega
      _ = (j + 1) * (ts.map List.length).prod := by rw [Nat.succ_mul]
      _ ≤ _ := Nat.mul_le_mul_right _ hj

/-- **C67.** The product has as many elements as the sizes' product; every choice of one element from each tuple is at
its place in the enumeration in which the last tuple varies fastest, and every place holds exactly one choice. -/
theorem C67_cartesian_product (ts : List (List α)) :
    ∃ r, cartesian ts = .ok r ∧ r.length = (ts.map List.length).prod ∧
      (∀ js, Choice ts js → (r[rank ts js]?).map (List.map some) = some (pick ts js)) ∧
      (∀ i < r.length, ∃ js, Choice ts js ∧ rank ts js = i ∧ ∀ js', Choice ts js' → rank ts js' = i → js' = js) := by
  refine ⟨product ts, cartesian_eq ts, product_length ts, ?_, ?_⟩
  · intro js h
    induction h with
    | nil => rfl
    | @cons t ts j js hj hc ih =>
      rw [rank, product, flatMap_index (m := (ts.map List.length).prod) t (fun x _ => by rw [List.length_map, product_length]) j _ hj
        (rank_lt hc), List.getElem?_map]
      rw [pick]
      cases hr : (product ts)[rank ts js]? with
      | none => rw [hr] at ih; cases ih
      | some c =>
        rw [hr] at ih
        simp only [Option.map_some, Option.some.injEq] at ih ⊢
        rw [List.map_cons, ih, List.getElem?_eq_getElem hj]
  · rw [product_length]
    induction ts with
    | nil =>
      intro i hi
      simp at hi
      subst hi
      exact ⟨[], .nil, rfl, fun js' h _ => by cases h; rfl⟩
    | cons t ts ih =>
      intro i hi
      rw [List.map_cons, List.prod_cons] at hi
      have hm : 0 < (ts.map List.length).prod := by
        rcases Nat.eq_zero_or_pos (ts.map List.length).prod with h | h
        · rw [h] at hi; simp at hi
        · exact h
      have hd : i / (ts.map List.length).prod < t.length := (Nat.div_lt_iff_lt_mul hm).mpr hi
      obtain ⟨js, h1, h2, h3⟩ := ih (i % (ts.map List.length).prod) (Nat.mod_lt _ hm)
      refine ⟨i / (ts.map List.length).prod :: js, .cons hd h1, ?_, ?_⟩
      · rw [rank, h2]; exact Nat.div_add_mod' i _
      · intro js' h' hr
        cases h' with
        | @cons _ _ j' js'' hj' hc' =>
          rw [rank] at hr
          have hlt := rank_lt hc'
          have e1 : i / (ts.map List.length).prod = j' := by
            rw [← hr, Nat.add_comm, Nat.mul_comm, Nat.add_mul_div_left _ _ hm, Nat.div_eq_of_lt hlt, Nat.zero_add]
          have e2 : i % (ts.map List.length).prod = rank ts js'' := by
            rw [← hr, Nat.add_comm, Nat.mul_comm, Nat.add_mul_mod_self_left, Nat.mod_eq_of_lt hlt]
          rw [e1, h3 js'' hc' e2.symm]

/-- Of no tuples it is one empty tuple; with an empty tuple it is empty. -/
theorem C67_cartesian_empty (ts : List (List α)) :
    cartesian ([] : List (List α)) = .ok [[]] ∧ ([] ∈ ts → cartesian ts = .ok []) := by
  refine ⟨rfl, fun h => ?_⟩
  rw [cartesian_eq]
  have : (product ts).length = 0 := by
    rw [product_length]
    induction ts with
    | nil => simp at h
    | cons t ts ih =>
      rw [List.map_cons, List.prod_cons]
      rcases List.mem_cons.mp h with h | h
      · rw [← h]; simp
      · rw [ih h, Nat.mul_zero]
  rw [List.eq_nil_of_length_eq_zero this]

example : Choice [[1, 2], [3, 4, 5]] [1, 2] ∧ rank [[1, 2], [3, 4, 5]] [1, 2] = 5 := ⟨.cons (by decide) (.cons (by decide) .nil), rfl⟩

/-! ### Rvalue tuples -/

theorem prependMove_eq (moved : α → α) (k : Nat → Nat) (e : α) (c : List (List α)) :
    prependMove moved k e c = .ok (c.zipIdx.map fun s => (if s.2 = k c.length then e else moved e) :: s.1) :=
  mapO_ok fun s _ => by rw [tupleCat_eq]; simp

theorem cartesianMove_ok (moved : α → α) (k : Nat → Nat) (ts : List (List α)) :
    ∃ r, cartesianMove moved k ts = .ok r ∧ r.length = (ts.map List.length).prod := by
  induction ts with
  | nil => exact ⟨_, rfl, rfl⟩
  | cons t ts ih =>
    obtain ⟨c, hc, hl⟩ := ih
    refine ⟨t.flatMap fun e => c.zipIdx.map fun s => (if s.2 = k c.length then e else moved e) :: s.1, ?_, ?_⟩
    · rw [cartesianMove, hc, Outcome.ok_bind,
        mapO_ok (g := fun e => c.zipIdx.map fun s => (if s.2 = k c.length then e else moved e) :: s.1)
          (fun e _ => prependMove_eq moved k e c), Outcome.ok_bind, tupleCat_eq, List.flatMap]
    · rw [List.length_flatMap]
      simp only [List.length_map, List.length_zipIdx, hl, List.map_cons, List.prod_cons]
      rw [List.map_const', List.sum_replicate_nat]

/-- With copies only (a moved-from value equal to the value) the rvalue form is the product too. -/
theorem C67_rvalue_copy_partial (k : Nat → Nat) (ts : List (List α)) : cartesianMove id k ts = cartesian ts := by
  rw [cartesian_eq]
  induction ts with
  | nil => rfl
  | cons t ts ih =>
    rw [cartesianMove, ih, Outcome.ok_bind, mapO_ok (g := fun e => (product ts).map (e :: ·)), Outcome.ok_bind, tupleCat_eq,
      product, List.flatMap]
    intro e _
    rw [prependMove_eq]
    congr 1
    simp only [id, ite_self]
    rw [show (fun s : List α × Nat => e :: s.1) = (fun x => e :: x) ∘ Prod.fst from rfl, ← List.map_map, List.zipIdx_map_fst]

/-- The values moved out: whatever the order of evaluation, when the other tuples have at least two combinations some
combination holds a moved-from value in place of the element. -/
theorem C67_rvalue_copy_violated (moved : α → α) (k : Nat → Nat) (t : List α) (ts : List (List α)) (e : α) (he : e ∈ t)
    (hm : moved e ∉ t) (h2 : 2 ≤ (ts.map List.length).prod) :
    ∃ r, cartesianMove moved k (t :: ts) = .ok r ∧ cartesian (t :: ts) ≠ .ok r ∧
      ∃ c ∈ r, c.head? = some (moved e) := by
  obtain ⟨c, hc, hl⟩ := cartesianMove_ok moved k ts
  have hr : cartesianMove moved k (t :: ts) =
      .ok (t.flatMap fun e => c.zipIdx.map fun s => (if s.2 = k c.length then e else moved e) :: s.1) := by
    rw [cartesianMove, hc, Outcome.ok_bind,
        mapO_ok (g := fun e => c.zipIdx.map fun s => (if s.2 = k c.length then e else moved e) :: s.1)
          (fun e _ => prependMove_eq moved k e c), Outcome.ok_bind, tupleCat_eq, List.flatMap]
  obtain ⟨j, hj, hjk⟩ : ∃ j, j < c.length ∧ j ≠ k c.length := by
    by_cases h : k c.length = 0
    · exact ⟨1, by omega, by omega⟩
    · exact ⟨0, by omega, by omega⟩
  have hmem : (moved e :: c[j]) ∈ t.flatMap fun e => c.zipIdx.map fun s => (if s.2 = k c.length then e else moved e) :: s.1 := by
    rw [List.mem_flatMap]
    refine ⟨e, he, ?_⟩
    rw [List.mem_map]
    refine ⟨(c[j], j), ?_, by simp [hjk]⟩
    rw [List.mem_zipIdx_iff_getElem?]
    exact List.getElem?_eq_getElem hj
  refine ⟨_, hr, ?_, _, hmem, rfl⟩
  intro hcon
  rw [cartesian_eq] at hcon
  injection hcon with hcon
  rw [← hcon, product, List.mem_flatMap] at hmem
  obtain ⟨x, hx, hmem⟩ := hmem
  rw [List.mem_map] at hmem
  obtain ⟨y, _, hy⟩ := hmem
  injection hy with hy _
  exact hm (hy ▸ hx)

/-- A string `"s"` (1), moved from empty (0), with two flags. -/
example : cartesianMove (fun _ => 0) (fun _ => 0) [[1], [5, 6]] = .ok [[1, 5], [0, 6]] := by decide
example : 1 ∈ [1] ∧ 0 ∉ [1] ∧ 2 ≤ ([[5, 6]].map List.length).prod := by decide

end Verif.Tuple
