import Verif.IList.Lemmas

namespace Verif.IList

theorem split_at {x : Nat} {L : List Nat} (hx : x ∈ L) : ∃ B,
    L = L.takeWhile (· ≠ x) ++ x :: B ∧ L.dropWhile (· ≠ x) = x :: B := by
  induction L with
  | nil => simp at hx
  | cons a L ih =>
    by_cases h : a = x
    · subst h; exact ⟨L, by simp, by simp⟩
    · have hx' : x ∈ L := by simp at hx; rcases hx with rfl | hx; exact absurd rfl h; exact hx
      obtain ⟨B, e1, e2⟩ := ih hx'
      refine ⟨B, ?_, ?_⟩
      · simp only [List.takeWhile_cons, h, ne_eq, not_false_eq_true, decide_true, ↓reduceIte,
          List.cons_append]
        rw [← e1]
      · simp only [List.dropWhile_cons, h, ne_eq, not_false_eq_true, decide_true, ↓reduceIte]
        exact e2

theorem filter_mid {x : Nat} {A B : List Nat} (hnd : (A ++ x :: B).Nodup) :
    (A ++ x :: B).filter (· ≠ x) = A ++ B := by
  have hp := List.nodup_cons.mp (List.perm_middle.nodup_iff.mp hnd)
  have h1 : A.filter (· ≠ x) = A := by
    rw [List.filter_eq_self]; intro a ha; simp; rintro rfl; exact hp.1 (by simp [ha])
  have h2 : B.filter (· ≠ x) = B := by
    rw [List.filter_eq_self]; intro a ha; simp; rintro rfl; exact hp.1 (by simp [ha])
  rw [List.filter_append, List.filter_cons_of_neg (by simp), h1, h2]

/-- Every allowed operation on a well-formed list ends normally, without panic, with the
specified result. -/
theorem step_ok {c : Cfg} {h : Heap} {l : Lst} {L L' : List Nat} {o : Op} {r : Out}
    (w : WF h l L) (hs : specStep L o = some (L', r))
    (hadd : ∀ n, o.added = some n → n < h.length ∧ n ∉ L ∧
      (c.policy = .checked → h[n]? = some ⟨none, none⟩))
    (hins : ∀ n, o = .insert none n → L ≠ [] → ∃ p, h[n]? = some ⟨p, none⟩) :
    ∃ h' l', step c h l o = .ok ((h', l'), r, 0) ∧ Done c h L o h' l' L' := by
  have same : ∀ o : Op, Done c h L o h l L := fun o =>
    ⟨w, rfl, fun _ _ _ => rfl, fun _ a ha ha' => absurd ha ha'⟩
  cases o with
  | pushFront n =>
    obtain ⟨h1, h2, h3⟩ := hadd n rfl
    simp [specStep] at hs
    obtain ⟨rfl, rfl⟩ := hs
    obtain ⟨h', l', e, d⟩ := pushFront_ok w h1 h2 h3
    exact ⟨h', l', by simp [step, e], d⟩
  | pushBack n =>
    obtain ⟨h1, h2, h3⟩ := hadd n rfl
    simp [specStep] at hs
    obtain ⟨rfl, rfl⟩ := hs
    obtain ⟨h', l', e, d⟩ := pushBack_ok w h1 h2 h3 (o := .pushBack n) rfl
    exact ⟨h', l', by simp [step, e], d⟩
  | insert it n =>
    obtain ⟨h1, h2, h3⟩ := hadd n rfl
    cases it with
    | none =>
      simp [specStep] at hs
      obtain ⟨rfl, rfl⟩ := hs
      obtain ⟨h', l', e, d⟩ := insert_end_ok w h1 h2 h3 (hins n rfl)
      exact ⟨h', l', by simp [step, e], d⟩
    | some x =>
      simp only [specStep] at hs
      split at hs
      · rename_i hx
        simp only [Option.some.injEq, Prod.mk.injEq] at hs
        obtain ⟨rfl, rfl⟩ := hs
        obtain ⟨B, e1, e2⟩ := split_at hx
        rw [e2]
        generalize List.takeWhile (· ≠ x) L = A at *
        subst e1
        obtain ⟨h', l', e, d⟩ := insert_mid_ok w h1 h2 h3
        exact ⟨h', l', by simp [step, e], d⟩
      · simp at hs
  | popFront =>
    cases L with
    | nil => simp [specStep] at hs
    | cons x xs =>
      simp [specStep] at hs
      obtain ⟨rfl, rfl⟩ := hs
      obtain ⟨h', l', e, d⟩ := popFront_ok (c := c) w
      exact ⟨h', l', by simp [step, e], d⟩
  | popBack =>
    rcases eq_nil_or_snoc L with rfl | ⟨A, y, rfl⟩
    · simp [specStep] at hs
    · simp [specStep] at hs
      obtain ⟨rfl, rfl⟩ := hs
      obtain ⟨h', l', e, d⟩ := popBack_ok (c := c) w
      exact ⟨h', l', by simp [step, e], d⟩
  | clear =>
    simp [specStep] at hs
    obtain ⟨rfl, rfl⟩ := hs
    obtain ⟨h', l', e, d⟩ := clear_ok (c := c) w
    exact ⟨h', l', by simp [step, e], d⟩
  | remove n =>
    simp only [specStep] at hs
    split at hs
    · rename_i hx
      simp only [Option.some.injEq, Prod.mk.injEq] at hs
      obtain ⟨rfl, rfl⟩ := hs
      obtain ⟨B, e1, e2⟩ := split_at hx
      generalize List.takeWhile (· ≠ n) L = A at *
      subst e1
      obtain ⟨h', l', e, d⟩ := remove_ok (c := c) w
      rw [filter_mid w.nodup]
      exact ⟨h', l', by simp [step, e], d⟩
    · simp at hs
  | empty =>
    simp [specStep] at hs
    obtain ⟨rfl, rfl⟩ := hs
    refine ⟨h, l, ?_, same _⟩
    simp [step, w.head]
  | front =>
    cases L with
    | nil => simp [specStep] at hs
    | cons x xs =>
      simp [specStep] at hs
      obtain ⟨rfl, rfl⟩ := hs
      refine ⟨h, l, ?_, same _⟩
      have := rd_ok w.links.1
      have hh := w.head
      simp at hh
      simp [step, hh, refTo, this]
  | back =>
    rcases eq_nil_or_snoc L with rfl | ⟨A, y, rfl⟩
    · simp [specStep] at hs
    · simp [specStep] at hs
      obtain ⟨rfl, rfl⟩ := hs
      refine ⟨h, l, ?_, same _⟩
      have hl := w.links
      rw [links_append] at hl
      have := rd_ok hl.2.1
      have ht := w.tail
      simp at ht
      simp [step, ht, refTo, this]
  | iterate =>
    simp [specStep] at hs
    obtain ⟨rfl, rfl⟩ := hs
    refine ⟨h, l, ?_, same _⟩
    simp [step, w.head, walk_ok L w.links (wf_len w)]
  | iterateBack =>
    simp [specStep] at hs
    obtain ⟨rfl, rfl⟩ := hs
    refine ⟨h, l, ?_, same _⟩
    have := walkBack_ok (h := h) L.reverse (q := none) (fuel := h.length) (by simpa using w.links)
      (by simpa using wf_len w)
    simp at this
    simp [step, w.tail, this]

/-- The world `w` represents the family of sequences `ls`: each object is well formed, the
sequences are pairwise disjoint and, with the checked policy, nodes in no list have null
links. -/
structure WorldOk {ι : Type} (c : Cfg) (w : World ι) (ls : ι → List Nat) : Prop where
  wf : ∀ i, WF w.heap (w.lists i) (ls i)
  disj : ∀ i j, i ≠ j → ∀ a, a ∈ ls i → a ∉ ls j
  free : c.policy = .checked → ∀ a, a < w.heap.length → (∀ j, a ∉ ls j) →
    w.heap[a]? = some ⟨none, none⟩

theorem wf_frame {h h' : Heap} {l : Lst} {L : List Nat} (w : WF h l L)
    (hf : ∀ a ∈ L, h'[a]? = h[a]?) : WF h' l L :=
  ⟨w.nodup, w.head, w.tail, links_frame L hf w.links⟩

theorem specStep_mem {L L' : List Nat} {o : Op} {r : Out} (hs : specStep L o = some (L', r)) :
    ∀ a ∈ L', a ∈ L ∨ o.added = some a := by
  intro a ha
  cases o with
  | pushFront n => simp [specStep] at hs; simp [← hs.1] at ha; simp [Op.added]; grind
  | pushBack n => simp [specStep] at hs; simp [← hs.1] at ha; simp [Op.added]; grind
  | insert it n =>
    cases it with
    | none => simp [specStep] at hs; simp [← hs.1] at ha; simp [Op.added]; grind
    | some x =>
      simp only [specStep] at hs
      split at hs
      · simp only [Option.some.injEq, Prod.mk.injEq] at hs
        rw [← hs.1] at ha
        simp only [List.mem_append, List.mem_cons] at ha
        rcases ha with ha | rfl | ha
        · exact .inl (List.takeWhile_sublist _ |>.subset ha)
        · exact .inr rfl
        · exact .inl (List.dropWhile_sublist _ |>.subset ha)
      · simp at hs
  | popFront =>
    cases L with
    | nil => simp [specStep] at hs
    | cons x xs => simp [specStep] at hs; simp [hs.1, ha]
  | popBack =>
    rcases eq_nil_or_snoc L with rfl | ⟨A, y, rfl⟩
    · simp [specStep] at hs
    · simp [specStep] at hs; simp [hs.1, ha]
  | clear => simp [specStep] at hs; obtain ⟨rfl, _⟩ := hs; simp at ha
  | remove n =>
    simp only [specStep] at hs
    split at hs
    · simp only [Option.some.injEq, Prod.mk.injEq] at hs
      rw [← hs.1] at ha
      exact .inl (List.mem_filter.mp ha).1
    · simp at hs
  | empty => simp [specStep] at hs; rw [hs.1]; exact .inl ha
  | front =>
    cases L with
    | nil => simp [specStep] at hs
    | cons x xs => simp [specStep] at hs; rw [← hs.1] at ha; exact .inl ha
  | back =>
    rcases eq_nil_or_snoc L with rfl | ⟨A, y, rfl⟩
    · simp [specStep] at hs
    · simp [specStep] at hs; rw [← hs.1] at ha; exact .inl ha
  | iterate => simp [specStep] at hs; rw [hs.1]; exact .inl ha
  | iterateBack => simp [specStep] at hs; rw [hs.1]; exact .inl ha

theorem specStep_added {L L' : List Nat} {o : Op} {r : Out} (hs : specStep L o = some (L', r))
    {n : Nat} (ho : o.added = some n) : n ∈ L' := by
  cases o <;> simp [Op.added] at ho
  · simp [specStep] at hs; simp [← hs.1, ho]
  · simp [specStep] at hs; simp [← hs.1, ho]
  · rename_i it n
    cases it with
    | none => simp [specStep] at hs; simp [← hs.1, ho]
    | some x =>
      simp only [specStep] at hs
      split at hs
      · simp only [Option.some.injEq, Prod.mk.injEq] at hs
        rw [← hs.1]; simp [ho]
      · simp at hs

/-- As `stepW_ok` below, with the condition on `insert(end(), n)` that the code needs. -/
theorem stepW_ok_next {ι : Type} [DecidableEq ι] {c : Cfg} {w : World ι} {ls : ι → List Nat}
    (hw : WorldOk c w ls) {i : ι} {o : Op} {L' : List Nat} {r : Out}
    (hs : specStep (ls i) o = some (L', r))
    (hn1 : ∀ n, o.added = some n → n < w.heap.length ∧ ∀ j, n ∉ ls j)
    (hins : ∀ n, o = .insert none n → ls i ≠ [] → ∃ p, w.heap[n]? = some ⟨p, none⟩) :
    ∃ w', stepW c w i o = .ok (w', r, 0) ∧ w'.heap.length = w.heap.length ∧
      WorldOk c w' (fun j => if j = i then L' else ls j) ∧
      (∀ a, a ∉ ls i → o.added ≠ some a → w'.heap[a]? = w.heap[a]?) := by
  obtain ⟨h', l', e, d⟩ := step_ok (c := c) (hw.wf i) hs
    (fun n hadd => ⟨(hn1 n hadd).1, (hn1 n hadd).2 i, fun hp => hw.free hp n (hn1 n hadd).1
      (hn1 n hadd).2⟩) hins
  refine ⟨⟨h', fun j => if j = i then l' else w.lists j⟩, ?_, d.len, ⟨?_, ?_, ?_⟩, d.frame⟩
  · simp [stepW, e]
  · intro j
    by_cases hj : j = i
    · subst hj; simpa using d.wf
    · simp only [hj, ↓reduceIte]
      refine wf_frame (hw.wf j) ?_
      intro a ha
      refine d.frame a (hw.disj j i hj a ha) ?_
      intro hadd
      exact (hn1 a hadd).2 j ha
  · intro j k hjk a
    by_cases hj : j = i
    · have hk : ¬ k = i := fun hk => hjk (hj.trans hk.symm)
      simp only [hj, hk, ↓reduceIte]
      intro ha
      rcases specStep_mem hs a ha with hm | hadd
      · exact hw.disj i k (fun h => hk h.symm) a hm
      · exact (hn1 a hadd).2 k
    · simp only [hj, ↓reduceIte]
      intro ha
      by_cases hk : k = i
      · simp only [hk, ↓reduceIte]
        intro hm
        rcases specStep_mem hs a hm with hm | hadd
        · exact hw.disj j i hj a ha hm
        · exact (hn1 a hadd).2 j ha
      · simp only [hk, ↓reduceIte]
        exact hw.disj j k hjk a ha
  · intro hp a ha hfree
    have hi := hfree i
    simp only [↓reduceIte] at hi
    by_cases hm : a ∈ ls i
    · exact d.freed hp a hm hi
    · have hadd : o.added ≠ some a := fun h => hi (specStep_added hs h)
      rw [d.frame a hm hadd]
      refine hw.free hp a (by rw [← d.len]; exact ha) ?_
      intro j
      by_cases hj : j = i
      · subst hj; exact hm
      · have := hfree j; simpa [hj] using this

theorem stepW_ok {ι : Type} [DecidableEq ι] {c : Cfg} {w : World ι} {ls : ι → List Nat}
    (hw : WorldOk c w ls) {i : ι} {o : Op} {L' : List Nat} {r : Out}
    (hs : specStep (ls i) o = some (L', r)) (hn : NodeOk c w.heap.length ls i o) :
    ∃ w', stepW c w i o = .ok (w', r, 0) ∧ w'.heap.length = w.heap.length ∧
      WorldOk c w' (fun j => if j = i then L' else ls j) ∧
      (∀ a, a ∉ ls i → o.added ≠ some a → w'.heap[a]? = w.heap[a]?) :=
  stepW_ok_next hw hs hn.1 fun n ho hne => ⟨none, hw.free (hn.2 n ho hne) n (hn.1 n (by simp [ho, Op.added])).1
    (hn.1 n (by simp [ho, Op.added])).2⟩

theorem runW_ok {ι : Type} [DecidableEq ι] {c : Cfg} {size : Nat} {ls ls' : ι → List Nat}
    {ops : List (ι × Op)} {rs : List Out} (hs : SpecRun c size ls ops ls' rs) :
    ∀ {w : World ι}, WorldOk c w ls → w.heap.length = size →
      ∃ w', runW c w ops = .ok (w', rs, 0) ∧ WorldOk c w' ls' ∧ w'.heap.length = size := by
  induction hs with
  | nil ls => intro w hw hl; exact ⟨w, rfl, hw, hl⟩
  | cons h hn hr ih =>
    intro w hw hl
    subst hl
    obtain ⟨w1, e1, hl1, hw1, _⟩ := stepW_ok hw h hn
    obtain ⟨w2, e2, hw2, hl2⟩ := ih hw1 hl1
    exact ⟨w2, by simp [runW, e1, e2], hw2, hl2⟩

end Verif.IList

namespace Verif.IList

/-- The abstract run of the operations on list `i` alone. -/
theorem specRun_project {ι : Type} [DecidableEq ι] {c : Cfg} {size : Nat} {ls ls' : ι → List Nat}
    {ops : List (ι × Op)} {rs : List Out} (hs : SpecRun c size ls ops ls' rs) (i : ι) :
    SpecRun c size (fun j => if j = i then ls i else []) (ops.filter (fun x => x.1 = i))
      (fun j => if j = i then ls' i else [])
      (((ops.zip rs).filter (fun x => x.1.1 = i)).map (·.2)) := by
  induction hs with
  | nil ls => exact .nil _
  | @cons ls k o l' r os ls' rs h hn hr ih =>
    by_cases hk : k = i
    · subst hk
      simp only [List.zip_cons_cons, decide_true, List.filter_cons_of_pos, List.map_cons]
      refine .cons (l' := l') (by simpa using h) ?_ ?_
      · refine ⟨fun n ha => ⟨(hn.1 n ha).1, fun j => ?_⟩, fun n ho hne => hn.2 n ho (by simpa using hne)⟩
        by_cases hj : j = k
        · subst hj; simpa using (hn.1 n ha).2 j
        · simp [hj]
      · have : (fun j => if j = k then l' else if j = k then ls k else ([] : List Nat))
            = (fun j => if j = k then (if k = k then l' else ls k) else []) := by
          funext j; by_cases hj : j = k <;> simp [hj]
        rw [this]; exact ih
    · rw [List.filter_cons_of_neg (by simpa using hk), List.zip_cons_cons,
        List.filter_cons_of_neg (by simpa using hk)]
      have hik : ¬ i = k := fun e => hk e.symm
      simpa [hik] using ih

theorem specRun_append {ι : Type} [DecidableEq ι] {c : Cfg} {size : Nat} {ls ls' ls'' : ι → List Nat}
    {ops ops' : List (ι × Op)} {rs rs' : List Out} (h1 : SpecRun c size ls ops ls' rs)
    (h2 : SpecRun c size ls' ops' ls'' rs') : SpecRun c size ls (ops ++ ops') ls'' (rs ++ rs') := by
  induction h1 with
  | nil => exact h2
  | cons h hn _ ih => exact .cons h hn (ih h2)

/-- A history with one more operation. -/
theorem runW_snoc {ι : Type} [DecidableEq ι] (c : Cfg) (i : ι) (o : Op) : ∀ (ops : List (ι × Op)) (w : World ι),
    runW c w (ops ++ [(i, o)]) = runW c w ops >>= fun x =>
      stepW c x.1 i o >>= fun y => .ok (y.1, x.2.1 ++ [y.2.1], x.2.2 + y.2.2) := by
  intro ops
  induction ops with
  | nil =>
    intro w
    simp only [List.nil_append, runW, Outcome.ok_bind]
    cases stepW c w i o <;> simp
  | cons a ops ih =>
    intro w
    obtain ⟨j, o'⟩ := a
    simp only [List.cons_append, runW]
    cases stepW c w j o' with
    | ok y =>
      simp only [Outcome.ok_bind, ih]
      cases runW c y.1 ops with
      | ok z =>
        simp only [Outcome.ok_bind, Outcome.pure_eq_ok]
        cases stepW c z.1 i o <;> simp [Nat.add_assoc]
      | ub => simp
      | panic => simp
    | ub => simp
    | panic => simp

end Verif.IList
