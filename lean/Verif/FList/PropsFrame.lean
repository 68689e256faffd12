import Verif.FList.Props

/-!
# Forward lists do not disturb nodes they do not own (C19)
-/

namespace Verif.FList

open Verif.IList (Ptr Node Heap Policy Handler)

/-- **C19, frame, forward list.** After any history, an operation on list `i` leaves every node that is not in list `i` and not passed
to the operation, and every other list object, as it was. -/
theorem C19_forward_operation_frame {ι : Type} [DecidableEq ι] {c : Cfg} {h : Heap}
    (hf : Fresh c h) {ops : List (ι × Op)} {ls : ι → List Nat} {rs : List Out}
    (hs : SpecRun h.length (fun _ => []) ops ls rs) {i : ι} {o : Op} {L' : List Nat} {r : Out}
    (ho : specStep (ls i) o = some (L', r)) (hn : NodeOk h.length ls o) :
    ∃ w w', runW c (start ι h) ops = .ok (w, rs, 0) ∧ stepW c w i o = .ok (w', r, 0) ∧
      (∀ a, a ∉ ls i → o.added ≠ some a → w'.heap[a]? = w.heap[a]?) ∧
      (∀ j, j ≠ i → w'.lists j = w.lists j) := by
  obtain ⟨w, e, hw, hl⟩ := runW_ok hs (start_ok (ι := ι) hf) rfl
  obtain ⟨w', e', _, _, hfr⟩ := stepW_ok hw ho (by rw [hl]; exact hn)
  refine ⟨w, w', e, e', hfr, ?_⟩
  intro j hj
  unfold stepW at e'
  obtain ⟨⟨⟨h1, l1⟩, r1, p1⟩, _, e2⟩ := Outcome.bind_eq_ok.mp e'
  simp at e2
  rw [← e2.1]
  simp [hj]

/-- The abstract run of the operations on list `i` alone. -/
theorem specRun_project {ι : Type} [DecidableEq ι] {size : Nat} {ls ls' : ι → List Nat}
    {ops : List (ι × Op)} {rs : List Out} (hs : SpecRun size ls ops ls' rs) (i : ι) :
    SpecRun size (fun j => if j = i then ls i else []) (ops.filter (fun x => x.1 = i))
      (fun j => if j = i then ls' i else [])
      (((ops.zip rs).filter (fun x => x.1.1 = i)).map (·.2)) := by
  induction hs with
  | nil ls => exact .nil _
  | @cons ls k o l' r os ls' rs h hn hr ih =>
    by_cases hk : k = i
    · subst hk
      simp only [List.zip_cons_cons, decide_true, List.filter_cons_of_pos, List.map_cons]
      refine .cons (l' := l') (by simpa using h) ?_ ?_
      · refine fun n ha => ⟨(hn n ha).1, fun j => ?_⟩
        by_cases hj : j = k
        · subst hj; simpa using (hn n ha).2 j
        · simp [hj]
      · have : (fun j => if j = k then l' else if j = k then ls k else ([] : List Nat))
            = (fun j => if j = k then (if k = k then l' else ls k) else []) := by
          funext j; by_cases hj : j = k <;> simp [hj]
        rw [this]; exact ih
    · rw [List.filter_cons_of_neg (by simpa using hk), List.zip_cons_cons,
        List.filter_cons_of_neg (by simpa using hk)]
      have hik : ¬ i = k := fun e => hk e.symm
      simpa [hik] using ih

/-- **C19, independence, forward list.** Running an interleaved history and running only the operations on list `i` give the same results
for list `i`: same returned values, same list object, same contents and same `next` links of its nodes. -/
theorem C19_forward_lists_independent {ι : Type} [DecidableEq ι] {c : Cfg} {h : Heap}
    (hf : Fresh c h) {ops : List (ι × Op)} {ls : ι → List Nat} {rs : List Out}
    (hs : SpecRun h.length (fun _ => []) ops ls rs) (i : ι) :
    ∃ w wi, runW c (start ι h) ops = .ok (w, rs, 0) ∧
      runW c (start ι h) (ops.filter (fun x => x.1 = i)) =
        .ok (wi, ((ops.zip rs).filter (fun x => x.1.1 = i)).map (·.2), 0) ∧
      w.lists i = wi.lists i ∧
      walk w.heap w.heap.length (w.lists i).head = walk wi.heap wi.heap.length (wi.lists i).head ∧
      (∀ a ∈ ls i, (w.heap[a]?).map (·.next) = (wi.heap[a]?).map (·.next)) := by
  obtain ⟨w, e, hw, hl⟩ := runW_ok hs (start_ok (ι := ι) hf) rfl
  have hp := specRun_project hs i
  have e0 : (fun j => if j = i then ([] : List Nat) else []) = fun _ => [] := by
    funext j; simp
  rw [e0] at hp
  obtain ⟨wi, ei, hwi, hli⟩ := runW_ok hp (start_ok (ι := ι) hf) rfl
  have w1 := hw.wf i
  have w2 := hwi.wf i
  simp only [↓reduceIte] at w2
  refine ⟨w, wi, e, ei, ?_, ?_, ?_⟩
  · cases h1 : w.lists i with
    | mk a b =>
      cases h2 : wi.lists i with
      | mk a' b' =>
        have q1 := w1.head; have q2 := w2.head; have q3 := w1.tail; have q4 := w2.tail
        simp [h1, h2] at q1 q2 q3 q4
        simp [q1, q2, q3, q4]
  · rw [w1.head, w2.head, walk_ok _ w1.links (wf_len w1), walk_ok _ w2.links (wf_len w2)]
  · intro a ha
    have aux : ∀ (L : List Nat), Links w.heap L none → Links wi.heap L none →
        ∀ a ∈ L, (w.heap[a]?).map (·.next) = (wi.heap[a]?).map (·.next) := by
      intro L
      induction L with
      | nil => intro _ _ a ha; simp at ha
      | cons x xs ih =>
        intro h1 h2 a ha
        simp at ha
        rcases ha with rfl | ha
        · obtain ⟨p, hp⟩ := h1.1
          obtain ⟨q, hq⟩ := h2.1
          simp [hp, hq]
        · exact ih h1.2 h2.2 a ha
    exact aux _ w1.links w2.links a ha

/-- C19: the two-list history of `ops3_spec` is such a history, and pushing to list `true` an allowed operation after it. -/
example : ∃ w w', runW ⟨.checked, .noreturn, false⟩ (start Bool heap3)
    [(true, .pushBack 0), (false, .pushFront 1), (true, .pushFront 2), (true, .iterate),
     (true, .popFront), (false, .pushBack 2), (false, .back)] = .ok (w,
    [.unit, .unit, .unit, .nodes [2, 0], .node (some 2), .unit, .node (some 2)], 0) ∧
    stepW ⟨.checked, .noreturn, false⟩ w true .popFront = .ok (w', .node (some 0), 0) ∧ w'.lists false = w.lists false := by
  obtain ⟨w, w', e, e', _, hl⟩ := C19_forward_operation_frame (c := ⟨.checked, .noreturn, false⟩)
    (by intro _ nd h; simp [heap3] at h; rcases h with rfl | rfl <;> simp) ops3_spec (i := true) (o := .popFront) (L' := []) (r := .node (some 0))
    rfl (by simp [NodeOk, Op.added])
  exact ⟨w, w', e, e', hl false (by decide)⟩

end Verif.FList
