import Verif.IList.PropsTail

/-!
# Lists over different nodes, with `insert(end(), n)` under both policies (C19)
-/

namespace Verif.IList

/-- **C19, frame, with `insert(end(), n)`.** After any history in which, with the unchecked policy, a node given to
`insert(end(), n)` of a list that is not empty was the last of its list when it left it, one more such operation on list `i`
leaves every node that is not in list `i` and not passed to it, and every other list object, as it was. -/
theorem C19_insert_end_frame {ι : Type} [DecidableEq ι] {c : Cfg} {h : Heap} (hf : Fresh c h)
    {ops : List (ι × Op)} {ls : ι → List Nat} {tidy : Nat → Prop} {rs : List Out}
    (hs : TidyRun c h.length (fun _ => []) (TidyAtFirst h) ops ls tidy rs) {i : ι} {o : Op} {L' : List Nat} {r : Out}
    (ho : specStep (ls i) o = some (L', r))
    (hn : ∀ n, o.added = some n → n < h.length ∧ ∀ j, n ∉ ls j)
    (ht : ∀ n, o = .insert none n → ls i ≠ [] → c.policy = .unchecked → tidy n) :
    ∃ w w', runW c (start ι h) ops = .ok (w, rs, 0) ∧ stepW c w i o = .ok (w', r, 0) ∧
      (∀ a, a ∉ ls i → o.added ≠ some a → w'.heap[a]? = w.heap[a]?) ∧
      (∀ j, j ≠ i → w'.lists j = w.lists j) := by
  obtain ⟨w, e, hw, hl⟩ := runW_tidy hs (start_tidy (ι := ι) hf) rfl
  rw [← hl] at hn
  obtain ⟨w', e', _, _, hfr⟩ := stepW_ok_next hw.ok ho hn (by
    intro n ho hne
    obtain ⟨h1, h2⟩ := hn n (by simp [ho, Op.added])
    cases hp : c.policy with
    | checked => exact ⟨none, hw.ok.free hp n h1 h2⟩
    | unchecked => exact (hw.tidy hp n h1 h2).mp (ht n ho hne hp))
  refine ⟨w, w', e, e', hfr, ?_⟩
  intro j hj
  unfold stepW at e'
  obtain ⟨⟨⟨h1, l1⟩, r1, p1⟩, _, e2⟩ := Outcome.bind_eq_ok.mp e'
  simp at e2
  rw [← e2.1]
  simp [hj]

/-- The sequence and the results of one list depend only on the operations on it. -/
theorem tidyRun_project {ι : Type} [DecidableEq ι] {c : Cfg} {size : Nat} {ls ls' : ι → List Nat} {tidy tidy' : Nat → Prop}
    {ops : List (ι × Op)} {rs : List Out} (hs : TidyRun c size ls tidy ops ls' tidy' rs) (i : ι) :
    ∀ {ms ms' : ι → List Nat} {t t' : Nat → Prop} {qs : List Out}, ms i = ls i →
      TidyRun c size ms t (ops.filter (fun x => x.1 = i)) ms' t' qs →
      ms' i = ls' i ∧ qs = ((ops.zip rs).filter (fun x => x.1.1 = i)).map (·.2) := by
  induction hs with
  | nil ls tidy =>
    intro ms ms' t t' qs e h
    cases h
    exact ⟨e, rfl⟩
  | cons h hn ht hr ih =>
    rename_i ls _ k o l' r os ls' _ rs
    intro ms ms' t t' qs e hm
    by_cases hk : k = i
    · subst hk
      simp only [List.filter_cons, decide_true, if_true] at hm
      cases hm with
      | cons h' _ _ hr' =>
        rw [e, h] at h'
        cases h'
        obtain ⟨h1, h2⟩ := ih (by simp) hr'
        exact ⟨h1, by simp [h2]⟩
    · simp only [List.filter_cons, hk, decide_false, Bool.false_eq_true, if_false] at hm
      obtain ⟨h1, h2⟩ := ih (by simp [show ¬ i = k from fun h => hk h.symm, e]) hm
      exact ⟨h1, by simp [h2, hk]⟩

/-- **C19, independence, with `insert(end(), n)`.** Running an interleaved history and running only the operations on list `i`,
both such that with the unchecked policy a node given to `insert(end(), n)` of a list that is not empty was the last of
its list when it left it: list `i` has the same results, the same list object, the same contents and the same links. -/
theorem C19_insert_end_independent {ι : Type} [DecidableEq ι] {c : Cfg} {h : Heap} (hf : Fresh c h)
    {ops : List (ι × Op)} {ls ms : ι → List Nat} {tidy t : Nat → Prop} {rs qs : List Out} (i : ι)
    (hs : TidyRun c h.length (fun _ => []) (TidyAtFirst h) ops ls tidy rs)
    (hi : TidyRun c h.length (fun _ => []) (TidyAtFirst h) (ops.filter (fun x => x.1 = i)) ms t qs) :
    ∃ w wi, runW c (start ι h) ops = .ok (w, rs, 0) ∧
      runW c (start ι h) (ops.filter (fun x => x.1 = i)) =
        .ok (wi, ((ops.zip rs).filter (fun x => x.1.1 = i)).map (·.2), 0) ∧
      w.lists i = wi.lists i ∧
      walk w.heap w.heap.length (w.lists i).head = walk wi.heap wi.heap.length (wi.lists i).head ∧
      (∀ a ∈ ls i, w.heap[a]? = wi.heap[a]?) := by
  obtain ⟨w, e, hw, hl⟩ := runW_tidy hs (start_tidy (ι := ι) hf) rfl
  obtain ⟨wi, ei, hwi, hli⟩ := runW_tidy hi (start_tidy (ι := ι) hf) rfl
  obtain ⟨em, rfl⟩ := tidyRun_project hs i rfl hi
  have w1 := hw.ok.wf i
  have w2 := hwi.ok.wf i
  rw [em] at w2
  refine ⟨w, wi, e, ei, ?_, ?_, ?_⟩
  · cases h1 : w.lists i with
    | mk a b =>
      cases h2 : wi.lists i with
      | mk a' b' =>
        have q1 := w1.head; have q2 := w2.head; have q3 := w1.tail; have q4 := w2.tail
        simp [h1, h2] at q1 q2 q3 q4
        simp [q1, q2, q3, q4]
  · rw [w1.head, w2.head, walk_ok _ w1.links (wf_len w1), walk_ok _ w2.links (wf_len w2)]
  · intro a ha
    have aux : ∀ (L : List Nat) (p : Ptr), Links w.heap p L none → Links wi.heap p L none →
        ∀ a ∈ L, w.heap[a]? = wi.heap[a]? := by
      intro L
      induction L with
      | nil => intro _ _ _ a ha; simp at ha
      | cons x xs ih =>
        intro p h1 h2 a ha
        simp at ha
        rcases ha with rfl | ha
        · rw [h1.1, h2.1]
        · exact ih _ h1.2 h2.2 a ha
    exact aux _ _ w1.links w2.links a ha

/-- Two lists with the unchecked policy: node 2 is appended to one with `insert(end(), ...)`, leaves it as the last, and is
appended to the other so. -/
example : (∃ ls tidy rs, TidyRun ⟨.unchecked, .returns⟩ 3 (fun _ => [])
      (TidyAtFirst [⟨none, none⟩, ⟨none, none⟩, ⟨none, none⟩])
      [(true, .pushBack 0), (true, .insert none 2), (true, .popBack), (false, .pushBack 1), (false, .insert none 2)]
      ls tidy rs ∧ ls true = [0] ∧ ls false = [1, 2]) ∧
    ∃ ls tidy rs, TidyRun ⟨.unchecked, .returns⟩ 3 (fun _ => [])
      (TidyAtFirst [⟨none, none⟩, ⟨none, none⟩, ⟨none, none⟩])
      ([(true, .pushBack 0), (true, .insert none 2), (true, .popBack), (false, .pushBack 1),
        (false, .insert none 2)].filter (fun x => x.1 = false)) ls tidy rs := by
  constructor
  · refine ⟨_, _, _, .cons (l' := [0]) rfl (by simp [Op.added]) (by simp) (.cons (l' := [0, 2]) rfl (by simp [Op.added])
      (by simp [TidyAtFirst, tidyAfter]) (.cons (l' := [0]) rfl (by simp [Op.added]) (by simp)
      (.cons (l' := [1]) rfl (by simp [Op.added]) (by simp) (.cons (l' := [1, 2]) rfl (by simp [Op.added])
      (by simp [TidyAtFirst, tidyAfter]) (.nil _ _))))), by simp, by simp⟩
  · exact ⟨_, _, _, .cons (l' := [1]) rfl (by simp [Op.added]) (by simp) (.cons (l' := [1, 2]) rfl (by simp [Op.added])
      (by simp [TidyAtFirst, tidyAfter]) (.nil _ _))⟩

end Verif.IList
