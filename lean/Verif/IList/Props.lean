import Verif.IList.Run

/-!
# Properties of `stdx::intrusive_list` (C18, C19, C20, C21, C22)

A program owns a heap of nodes and any number of list objects, all empty at the start.  With
the checked policy the nodes start with null links; with the unchecked policy their links may
hold anything.
-/

namespace Verif.IList

/-- The state before any operation. -/
def start (ι : Type) (h : Heap) : World ι := ⟨h, fun _ => ⟨none, none⟩⟩

/-- Nodes are as the policy demands before first use. -/
def Fresh (c : Cfg) (h : Heap) : Prop := c.policy = .checked → ∀ nd ∈ h, nd = ⟨none, none⟩

theorem start_ok {ι : Type} {c : Cfg} {h : Heap} (hf : Fresh c h) :
    WorldOk c (start ι h) (fun _ => []) := by
  refine ⟨fun _ => ⟨by simp, rfl, rfl, trivial⟩, by simp, ?_⟩
  intro hp a ha _
  have ha' : a < h.length := ha
  show h[a]? = _
  rw [List.getElem?_eq_getElem ha', hf hp _ (List.getElem_mem ha')]

/-- **C18.** Every history, over any number of lists and nodes, that respects the node
preconditions ends without undefined behaviour, every call returns what the abstract sequences
say, and at the end iterating a list from `begin()` yields exactly its abstract sequence while
following `prev` from the last node yields the reverse. -/
theorem C18_intrusive_list_refines_sequence_partial {ι : Type} [DecidableEq ι] {c : Cfg} {h : Heap}
    (hf : Fresh c h) {ops : List (ι × Op)} {ls' : ι → List Nat} {rs : List Out}
    (hs : SpecRun c h.length (fun _ => []) ops ls' rs) :
    ∃ w', runW c (start ι h) ops = .ok (w', rs, 0) ∧
      ∀ i, walk w'.heap w'.heap.length (w'.lists i).head = .ok (ls' i) ∧
        walkBack w'.heap w'.heap.length (w'.lists i).tail = .ok (ls' i).reverse ∧
        (w'.lists i).head = (ls' i).head? ∧ (w'.lists i).tail = (ls' i).getLast? := by
  obtain ⟨w', e, hw, _⟩ := runW_ok hs (start_ok (ι := ι) hf) rfl
  refine ⟨w', e, fun i => ?_⟩
  have w := hw.wf i
  refine ⟨by rw [w.head]; exact walk_ok _ w.links (wf_len w), ?_, w.head, w.tail⟩
  rw [w.tail, List.getLast?_eq_head?_reverse]
  exact walkBack_ok (ls' i).reverse (q := none) (by simpa using w.links) (by simpa using wf_len w)

/-- `front`, `back`, `pop_front` and `pop_back` on an empty list are undefined: the
preconditions in the specification are needed. -/
theorem C18_empty_access_undefined {ι : Type} [DecidableEq ι] {c : Cfg} {w : World ι}
    {ls : ι → List Nat} (hw : WorldOk c w ls) {i : ι} (he : ls i = []) :
    stepW c w i .front = .ub ∧ stepW c w i .back = .ub ∧ stepW c w i .popFront = .ub ∧
      stepW c w i .popBack = .ub := by
  have w0 := hw.wf i
  have hh := w0.head
  have ht := w0.tail
  rw [he] at hh ht
  simp at hh ht
  simp [stepW, step, refTo, popFront, popBack, rd, hh, ht]

/-- **C19, frame.** After any history, an operation on list `i` leaves every node that is not
in list `i` and not passed to the operation, and every other list object, as it was. -/
theorem C19_operation_frame_partial {ι : Type} [DecidableEq ι] {c : Cfg} {h : Heap}
    (hf : Fresh c h) {ops : List (ι × Op)} {ls : ι → List Nat} {rs : List Out}
    (hs : SpecRun c h.length (fun _ => []) ops ls rs) {i : ι} {o : Op} {L' : List Nat} {r : Out}
    (ho : specStep (ls i) o = some (L', r)) (hn : NodeOk c h.length ls i o) :
    ∃ w w', runW c (start ι h) ops = .ok (w, rs, 0) ∧ stepW c w i o = .ok (w', r, 0) ∧
      (∀ a, a ∉ ls i → o.added ≠ some a → w'.heap[a]? = w.heap[a]?) ∧
      (∀ j, j ≠ i → w'.lists j = w.lists j) := by
  obtain ⟨w, e, hw, hl⟩ := runW_ok hs (start_ok (ι := ι) hf) rfl
  obtain ⟨w', e', _, _, hfr⟩ := stepW_ok hw ho (by rw [hl]; exact hn)
  refine ⟨w, w', e, e', hfr, ?_⟩
  intro j hj
  unfold stepW at e'
  obtain ⟨⟨⟨h1, l1⟩, r1, p1⟩, _, e2⟩ := Outcome.bind_eq_ok.mp e'
  simp at e2
  rw [← e2.1]
  simp [hj]

/-- **C19, independence.** Running an interleaved history and running only the operations on
list `i` give the same results for list `i`: same returned values and same final contents. -/
theorem C19_lists_independent_partial {ι : Type} [DecidableEq ι] {c : Cfg} {h : Heap}
    (hf : Fresh c h) {ops : List (ι × Op)} {ls : ι → List Nat} {rs : List Out}
    (hs : SpecRun c h.length (fun _ => []) ops ls rs) (i : ι) :
    ∃ w wi, runW c (start ι h) ops = .ok (w, rs, 0) ∧
      runW c (start ι h) (ops.filter (fun x => x.1 = i)) =
        .ok (wi, ((ops.zip rs).filter (fun x => x.1.1 = i)).map (·.2), 0) ∧
      w.lists i = wi.lists i ∧
      walk w.heap w.heap.length (w.lists i).head = walk wi.heap wi.heap.length (wi.lists i).head ∧
      (∀ a ∈ ls i, w.heap[a]? = wi.heap[a]?) := by
  obtain ⟨w, e, hw, hl⟩ := runW_ok hs (start_ok (ι := ι) hf) rfl
  have hp := specRun_project hs i
  have e0 : (fun j => if j = i then ([] : List Nat) else []) = fun _ => [] := by
    funext j; simp
  rw [e0] at hp
  obtain ⟨wi, ei, hwi, hli⟩ := runW_ok hp (start_ok (ι := ι) hf) rfl
  have w1 := hw.wf i
  have w2 := hwi.wf i
  simp only [↓reduceIte] at w2
  refine ⟨w, wi, e, ei, ?_, ?_, ?_⟩
  · cases h1 : w.lists i with
    | mk a b =>
      cases h2 : wi.lists i with
      | mk a' b' =>
        have q1 := w1.head; have q2 := w2.head; have q3 := w1.tail; have q4 := w2.tail
        simp [h1, h2] at q1 q2 q3 q4
        simp [q1, q2, q3, q4]
  · rw [w1.head, w2.head, walk_ok _ w1.links (wf_len w1), walk_ok _ w2.links (wf_len w2)]
  · intro a ha
    have aux : ∀ (L : List Nat) (p : Ptr), Links w.heap p L none → Links wi.heap p L none →
        ∀ a ∈ L, w.heap[a]? = wi.heap[a]? := by
      intro L
      induction L with
      | nil => intro _ _ _ a ha; simp at ha
      | cons x xs ih =>
        intro p h1 h2 a ha
        simp at ha
        rcases ha with rfl | ha
        · rw [h1.1, h2.1]
        · exact ih _ h1.2 h2.2 a ha
    exact aux _ _ w1.links w2.links a ha

/-- **C20.** With the checked policy, after any history in which a node is only added while it
is in no list: the panic handler has not been called, every node in no list has null links, and
therefore adding any such node again succeeds without a panic. -/
theorem C20_checked_reuse_never_panics {ι : Type} [DecidableEq ι] {c : Cfg} {h : Heap}
    (hc : c.policy = .checked) (hf : Fresh c h) {ops : List (ι × Op)} {ls : ι → List Nat}
    {rs : List Out} (hs : SpecRun c h.length (fun _ => []) ops ls rs) :
    ∃ w, runW c (start ι h) ops = .ok (w, rs, 0) ∧
      ∀ n, n < h.length → (∀ j, n ∉ ls j) → w.heap[n]? = some ⟨none, none⟩ ∧
        ∀ i, (∃ w', stepW c w i (.pushFront n) = .ok (w', .unit, 0)) ∧
          (∃ w', stepW c w i (.pushBack n) = .ok (w', .unit, 0)) ∧
          (∃ w', stepW c w i (.insert none n) = .ok (w', .unit, 0)) ∧
          ∀ x ∈ ls i, ∃ w', stepW c w i (.insert (some x) n) = .ok (w', .unit, 0) := by
  obtain ⟨w, e, hw, hl⟩ := runW_ok hs (start_ok (ι := ι) hf) rfl
  refine ⟨w, e, fun n hn hfree => ⟨hw.free hc n (by rw [hl]; exact hn) hfree, fun i => ?_⟩⟩
  have go : ∀ (o : Op) (L' : List Nat), specStep (ls i) o = some (L', .unit) → o.added = some n →
      ∃ w', stepW c w i o = .ok (w', .unit, 0) := by
    intro o L' ho ha
    obtain ⟨w', e', _⟩ := stepW_ok hw ho ⟨fun m hm => by
      rw [ha] at hm; cases hm; exact ⟨by rw [hl]; exact hn, hfree⟩, fun _ _ _ => hc⟩
    exact ⟨w', e'⟩
  refine ⟨go _ _ rfl rfl, go _ _ rfl rfl, go _ _ rfl rfl, fun x hx => go _ _ (if_pos hx) rfl⟩

/-- A member of a list with at least two nodes has a non-null link. -/
theorem member_linked {h : Heap} {l : Lst} {L : List Nat} (w : WF h l L) (h2 : 2 ≤ L.length)
    {n : Nat} (hn : n ∈ L) : ∃ nd, h[n]? = some nd ∧ ¬ (nd.prev = none ∧ nd.next = none) := by
  obtain ⟨A, B, rfl⟩ := List.append_of_mem hn
  have hl := w.links
  rw [links_append] at hl
  refine ⟨_, hl.2.1, ?_⟩
  rintro ⟨h3, h4⟩
  simp at h3 h4 h2
  subst h3 h4
  simp at h2

theorem check_linked {c : Cfg} (hc : c.policy = .checked) {h : Heap} {n : Nat} {nd : Node}
    (hn : h[n]? = some nd) (hnd : ¬ (nd.prev = none ∧ nd.next = none)) :
    check c h n = match c.handler with | .returns => .ok 1 | .noreturn => .panic := by
  have : (decide (nd.prev = none ∧ nd.next = none)) = false := by simpa using hnd
  simp only [check, hc, validForPush, rd_ok hn, Outcome.ok_bind, Outcome.pure_eq_ok, this]
  cases c.handler <;> rfl

/-- **C21, partial.** With the checked policy, in every reachable state, adding (to any list, at
any position) a node that is a member of a list of at least two nodes calls the panic handler:
if the handler does not return the call ends in it, and if it returns it has been called once.
Missing: a node that is the only member of its list, see `C21_sole_member_violated`. -/
theorem C21_checked_detects_member_partial {ι : Type} [DecidableEq ι] {c : Cfg} {h : Heap}
    (hc : c.policy = .checked) (hf : Fresh c h) {ops : List (ι × Op)} {ls : ι → List Nat}
    {rs : List Out} (hs : SpecRun c h.length (fun _ => []) ops ls rs)
    {i j : ι} {n : Nat} (hn : n ∈ ls j) (h2 : 2 ≤ (ls j).length) {o : Op}
    (ho : o.added = some n) :
    ∃ w, runW c (start ι h) ops = .ok (w, rs, 0) ∧
      (c.handler = .noreturn → stepW c w i o = .panic) ∧
      (c.handler = .returns → ∀ w' r p, stepW c w i o = .ok (w', r, p) → p = 1) := by
  obtain ⟨w, e, hw, hl⟩ := runW_ok hs (start_ok (ι := ι) hf) rfl
  obtain ⟨nd, hnd, hlk⟩ := member_linked (hw.wf j) h2 hn
  have hck := check_linked hc hnd hlk
  refine ⟨w, e, ?_, ?_⟩
  · intro hh
    rw [hh] at hck
    cases o <;> simp [Op.added] at ho <;> subst ho
    · simp [stepW, step, pushFront, hck]
    · simp [stepW, step, pushBack, hck]
    · simp only [stepW, step, insert]
      split <;> simp [pushBack, hck]
  · intro hh w' r p hst
    rw [hh] at hck
    have pure1 : ∀ (x : Outcome (Heap × Lst)) (q : (Heap × Lst) × Nat),
        (do let p ← check c w.heap n; let r ← x; return (r, p)) = .ok q → q.2 = 1 := by
      intro x q hx
      rw [hck] at hx
      cases x <;> simp at hx
      rw [← hx]
    have fin : ∀ (x : Outcome ((Heap × Lst) × Nat)), (∀ q, x = .ok q → q.2 = 1) →
        (do let (r, p) ← x; return (r, Out.unit, p) : Outcome ((Heap × Lst) × Out × Nat)) >>=
          (fun y => (.ok (⟨y.1.1, fun j => if j = i then y.1.2 else w.lists j⟩, y.2.1, y.2.2) :
            Outcome (World ι × Out × Nat))) = .ok (w', r, p) → p = 1 := by
      intro x hx hq
      cases x with
      | ok q => simp at hq; rw [← hq.2.2]; exact hx q rfl
      | ub => simp at hq
      | panic => simp at hq
    cases o <;> simp [Op.added] at ho <;> subst ho
    · exact fin (pushFront c w.heap (w.lists i) _) (fun q hq => pure1 _ q hq) hst
    · exact fin (pushBack c w.heap (w.lists i) _) (fun q hq => pure1 _ q hq) hst
    · refine fin (insert c w.heap (w.lists i) _ _) (fun q hq => ?_) hst
      unfold insert at hq
      split at hq
      · exact pure1 _ q hq
      · exact pure1 _ q hq

/-- **C21, whole histories, partial.** A history in which nodes are added only while they are in no list,
followed by adding a member of a list of at least two nodes, ends in the panic handler if that does not return, and otherwise
has called it exactly once in total. -/
theorem C21_history_partial {ι : Type} [DecidableEq ι] {c : Cfg} {h : Heap}
    (hc : c.policy = .checked) (hf : Fresh c h) {ops : List (ι × Op)} {ls : ι → List Nat}
    {rs : List Out} (hs : SpecRun c h.length (fun _ => []) ops ls rs)
    {i j : ι} {n : Nat} (hn : n ∈ ls j) (h2 : 2 ≤ (ls j).length) {o : Op} (ho : o.added = some n) :
    (c.handler = .noreturn → runW c (start ι h) (ops ++ [(i, o)]) = .panic) ∧
    (c.handler = .returns → ∀ w' rs' p, runW c (start ι h) (ops ++ [(i, o)]) = .ok (w', rs', p) → p = 1) := by
  obtain ⟨w, e, h1, h2⟩ := C21_checked_detects_member_partial (i := i) hc hf hs hn h2 ho
  rw [runW_snoc, e, Outcome.ok_bind]
  refine ⟨fun hh => by rw [h1 hh]; rfl, fun hh w' rs' p hp => ?_⟩
  simp only at hp
  cases hst : stepW c w i o with
  | ok y =>
    rw [hst] at hp
    simp only [Outcome.ok_bind, Outcome.ok.injEq, Prod.mk.injEq, Nat.zero_add] at hp
    rw [← hp.2.2]
    exact h2 hh _ _ _ hst
  | ub => rw [hst] at hp; simp at hp
  | panic => rw [hst] at hp; simp at hp

/-- **C21 does not hold in full.** The links of the only member of a list are null, so the
checked policy does not see that it is a member: in every reachable state with a one-node list,
`push_front` of that node on the same list calls no panic handler and leaves a list whose
iteration from `begin()` never reaches `end()`. -/
theorem C21_sole_member_violated {ι : Type} [DecidableEq ι] {c : Cfg} {h : Heap}
    (hf : Fresh c h) {ops : List (ι × Op)} {ls : ι → List Nat}
    {rs : List Out} (hs : SpecRun c h.length (fun _ => []) ops ls rs)
    {i : ι} {n : Nat} (hn : ls i = [n]) :
    ∃ w w', runW c (start ι h) ops = .ok (w, rs, 0) ∧
      stepW c w i (.pushFront n) = .ok (w', .unit, 0) ∧
      (w'.lists i).head = some n ∧ ∀ fuel, walk w'.heap fuel (w'.lists i).head = .ub := by
  obtain ⟨w, e, hw, hl⟩ := runW_ok hs (start_ok (ι := ι) hf) rfl
  have w0 := hw.wf i
  rw [hn] at w0
  have hh := w0.head
  have ht := w0.tail
  have hlk := w0.links.1
  simp at hh ht hlk
  obtain ⟨hlt, hg⟩ := List.getElem?_eq_some_iff.mp hlk
  have hck : check c w.heap n = .ok 0 := check_ok (fun _ => hlk)
  refine ⟨w, ⟨w.heap.set n ⟨none, some n⟩, fun j => if j = i then ⟨some n, some n⟩ else w.lists j⟩,
    e, ?_, by simp, ?_⟩
  · simp [stepW, step, pushFront, hck, uncheckedPushFront, hh, ht, setNext_eq, setPrev_eq, hlt, hg]
  · intro fuel
    simp only [↓reduceIte]
    induction fuel with
    | zero => rfl
    | succ fuel ih => simp [walk, rd_eq, hlt, ih]

/-- **C21, how it fails.** In every reachable state, no way of adding the only member of a list, to that
list or to another one, calls the panic handler. -/
theorem C21_sole_member_undetected {ι : Type} [DecidableEq ι] {c : Cfg} {h : Heap}
    (hf : Fresh c h) {ops : List (ι × Op)} {ls : ι → List Nat}
    {rs : List Out} (hs : SpecRun c h.length (fun _ => []) ops ls rs)
    {i j : ι} {n : Nat} (hn : ls j = [n]) {o : Op} (ho : o.added = some n) :
    ∃ w, runW c (start ι h) ops = .ok (w, rs, 0) ∧ stepW c w i o ≠ .panic ∧
      ∀ w' r p, stepW c w i o = .ok (w', r, p) → p = 0 := by
  obtain ⟨w, e, hw, hl⟩ := runW_ok hs (start_ok (ι := ι) hf) rfl
  have w0 := hw.wf j
  rw [hn] at w0
  have hlk := w0.links.1
  simp at hlk
  have hck : check c w.heap n = .ok 0 := check_ok (fun _ => hlk)
  have np : ∀ {α β : Type} {x : Outcome α} {f : α → Outcome β}, x ≠ .panic → (∀ a, f a ≠ .panic) →
      (x >>= f) ≠ .panic := by
    intro α β x f h1 h2
    cases x with
    | ok a => simpa using h2 a
    | ub => simp
    | panic => exact absurd rfl h1
  have ok : ∀ {α : Type} (a : α), (pure a : Outcome α) ≠ .panic := by intro α a; simp
  have g : ∀ (h : Heap) a, arrGet h a ≠ .panic := by intro h a; unfold arrGet; split <;> simp
  have t : ∀ (h : Heap) a (x : Node), arrSet h a x ≠ .panic := by intro h a x; unfold arrSet; split <;> simp
  have nN : ∀ (h : Heap) (p v : Ptr), setNext h p v ≠ .panic := by
    intro h p v
    rcases p with _ | a
    · simp [setNext]
    · exact np (g h a) fun _ => t _ _ _
  have nP : ∀ (h : Heap) (p v : Ptr), setPrev h p v ≠ .panic := by
    intro h p v
    rcases p with _ | a
    · simp [setPrev]
    · exact np (g h a) fun _ => t _ _ _
  have nR : ∀ (h : Heap) (p : Ptr), rd h p ≠ .panic := by
    intro h p
    rcases p with _ | a
    · simp [rd]
    · exact g h a
  have pf : ∀ l, uncheckedPushFront w.heap l n ≠ .panic := by
    intro l
    unfold uncheckedPushFront
    dsimp only
    split
    · exact np (nP _ _ _) fun _ => np (nN _ _ _) fun _ => np (nP _ _ _) fun _ => ok _
    · exact np (by simp) fun _ => np (nN _ _ _) fun _ => np (nP _ _ _) fun _ => ok _
  have pb : ∀ l, uncheckedPushBack w.heap l n ≠ .panic := by
    intro l
    unfold uncheckedPushBack
    dsimp only
    split
    · exact np (nN _ _ _) fun _ => np (nP _ _ _) fun _ => np (nN _ _ _) fun _ => ok _
    · exact np (by simp) fun _ => np (nP _ _ _) fun _ => np (nN _ _ _) fun _ => ok _
  have pi : ∀ l it, uncheckedInsert w.heap l it n ≠ .panic := by
    intro l it
    unfold uncheckedInsert
    refine np ?_ fun ⟨h1, l1⟩ => np (nR _ _) fun nd => ?_
    · split
      · exact np (nN _ _ _) fun _ => np (nR _ _) fun _ => np (nP _ _ _) fun _ => np (nP _ _ _) fun _ => ok _
      · exact np (nP _ _ _) fun _ => ok _
    · split
      · exact np (nN _ _ _) fun _ => ok _
      · exact ok _
  -- every addition is the check followed by one of the three
  obtain ⟨x, hx, hst⟩ : ∃ x : Outcome (Heap × Lst), x ≠ .panic ∧ step c w.heap (w.lists i) o =
      (x >>= fun r => .ok (r, .unit, 0)) := by
    cases o <;> simp [Op.added] at ho <;> subst ho
    · refine ⟨_, pf (w.lists i), ?_⟩
      simp only [step, pushFront, hck, Outcome.ok_bind]
      cases uncheckedPushFront w.heap (w.lists i) _ <;> rfl
    · refine ⟨_, pb (w.lists i), ?_⟩
      simp only [step, pushBack, hck, Outcome.ok_bind]
      cases uncheckedPushBack w.heap (w.lists i) _ <;> rfl
    · rename_i it _
      by_cases hh : (w.lists i).head = none
      · refine ⟨_, pb (w.lists i), ?_⟩
        simp only [step, insert, hh, if_true, pushBack, hck, Outcome.ok_bind]
        cases uncheckedPushBack w.heap (w.lists i) _ <;> rfl
      · refine ⟨_, pi (w.lists i) it, ?_⟩
        simp only [step, insert, hh, if_false, hck, Outcome.ok_bind]
        cases uncheckedInsert w.heap (w.lists i) it _ <;> rfl
  refine ⟨w, e, ?_, fun w' r p hp => ?_⟩
  · unfold stepW
    rw [hst]
    exact np (np hx fun _ => by simp) fun _ => by simp
  · unfold stepW at hp
    rw [hst] at hp
    cases x <;> simp at hp
    exact hp.2.2.symm

/-- **C22, insert before an element.** In every reachable state of either policy, whatever the
links of `n` hold if the policy admits it, `insert(it, n)` with `it` at `x` puts `n` immediately
before `x` and keeps everything else in order. -/
theorem C22_insert_before {ι : Type} [DecidableEq ι] {c : Cfg} {h : Heap}
    (hf : Fresh c h) {ops : List (ι × Op)} {ls : ι → List Nat} {rs : List Out}
    (hs : SpecRun c h.length (fun _ => []) ops ls rs) {i : ι} {A B : List Nat} {x n : Nat}
    (hx : ls i = A ++ x :: B) (hn : n < h.length) (hfree : ∀ j, n ∉ ls j) :
    ∃ w w', runW c (start ι h) ops = .ok (w, rs, 0) ∧
      stepW c w i (.insert (some x) n) = .ok (w', .unit, 0) ∧
      walk w'.heap h.length (w'.lists i).head = .ok (A ++ n :: x :: B) ∧
      walkBack w'.heap h.length (w'.lists i).tail = .ok (A ++ n :: x :: B).reverse := by
  obtain ⟨w, e, hw, hl⟩ := runW_ok hs (start_ok (ι := ι) hf) rfl
  have w0 := hw.wf i
  rw [hx] at w0
  obtain ⟨h', l', e', d⟩ := insert_mid_ok (c := c) w0 (n := n) (by rw [hl]; exact hn)
    (by rw [← hx]; exact hfree i) (fun hp => hw.free hp n (by rw [hl]; exact hn) hfree)
  refine ⟨w, ⟨h', fun j => if j = i then l' else w.lists j⟩, e, by simp [stepW, step, e'], ?_, ?_⟩
  · have hlen := wf_len d.wf
    rw [d.len, hl] at hlen
    simp only [↓reduceIte]
    rw [d.wf.head]
    exact walk_ok _ d.wf.links hlen
  · have hlen := wf_len d.wf
    rw [d.len, hl] at hlen
    simp only [↓reduceIte]
    rw [d.wf.tail, List.getLast?_eq_head?_reverse]
    exact walkBack_ok _ (q := none) (by simpa using d.wf.links) (by rw [List.length_reverse]; exact hlen)

/-- **C19 does not hold in full.** Unchecked policy, two lists.  Node 2 leaves the list `[2, 3]` and is inserted at `end()`
of the list `[0]`: it is in no list then, but keeps its stale `next`.  Removing it again from that list writes to node 3, which is
in the other list and was not passed: its `prev` becomes node 0, and following `prev` in the other list leads into the
first. -/
theorem C19_interference_violated : ∃ w w' : World Bool, ∃ rs,
    runW ⟨.unchecked, .returns⟩ (start Bool (List.replicate 4 ⟨none, none⟩))
      [(true, .pushBack 2), (true, .pushBack 3), (true, .remove 2), (false, .pushBack 0), (false, .insert none 2)] =
        .ok (w, rs, 0) ∧
    walk w.heap 4 (w.lists true).head = .ok [3] ∧ walkBack w.heap 4 (w.lists true).tail = .ok [3] ∧
    stepW ⟨.unchecked, .returns⟩ w false (.remove 2) = .ok (w', .unit, 0) ∧
    w'.heap[3]? ≠ w.heap[3]? ∧ walkBack w'.heap 4 (w'.lists true).tail = .ok [3, 0] :=
  ⟨_, _, _, rfl, rfl, rfl, rfl, by decide, rfl⟩

/-- **C22, insert at the end, partial.** `insert(end(), n)` appends `n` if the policy is checked,
or the list is empty, or `n->next` is null.  Missing: the unchecked policy with a non-empty list
and a stale `n->next`, see `C22_insert_end_violated`. -/
theorem C22_insert_end_partial {ι : Type} [DecidableEq ι] {c : Cfg} {h : Heap}
    (hf : Fresh c h) {ops : List (ι × Op)} {ls : ι → List Nat} {rs : List Out}
    (hs : SpecRun c h.length (fun _ => []) ops ls rs) {i : ι} {n : Nat}
    (hn : n < h.length) (hfree : ∀ j, n ∉ ls j) :
    ∃ w, runW c (start ι h) ops = .ok (w, rs, 0) ∧
      ((c.policy = .checked ∨ ls i = [] ∨ ∃ p, w.heap[n]? = some ⟨p, none⟩) →
      ∃ w', stepW c w i (.insert none n) = .ok (w', .unit, 0) ∧
        walk w'.heap h.length (w'.lists i).head = .ok (ls i ++ [n]) ∧
        walkBack w'.heap h.length (w'.lists i).tail = .ok (ls i ++ [n]).reverse) := by
  obtain ⟨w, e, hw, hl⟩ := runW_ok hs (start_ok (ι := ι) hf) rfl
  refine ⟨w, e, fun hcase => ?_⟩
  have hnl : n < w.heap.length := by rw [hl]; exact hn
  obtain ⟨h', l', e', d⟩ := insert_end_ok (c := c) (hw.wf i) (n := n) hnl (hfree i)
    (fun hp => hw.free hp n hnl hfree) (by
      intro hne
      rcases hcase with hp | he | hp
      · exact ⟨none, hw.free hp n hnl hfree⟩
      · exact absurd he hne
      · exact hp)
  refine ⟨⟨h', fun j => if j = i then l' else w.lists j⟩, by simp [stepW, step, e'], ?_, ?_⟩
  · have hlen := wf_len d.wf
    rw [d.len, hl] at hlen
    simp only [↓reduceIte]
    rw [d.wf.head]
    exact walk_ok _ d.wf.links hlen
  · have hlen := wf_len d.wf
    rw [d.len, hl] at hlen
    simp only [↓reduceIte]
    rw [d.wf.tail, List.getLast?_eq_head?_reverse]
    exact walkBack_ok _ (q := none) (by simpa using d.wf.links) (by rw [List.length_reverse]; exact hlen)

/-- **C22 does not hold in full.** Unchecked policy, two nodes: `push_back(0)`, `push_back(1)`,
`remove(0)`, `insert(end(), 0)`.  Node 0 is in no list when it is inserted, yet its stale `next`
is kept, so iterating the resulting list never reaches `end()`. -/
theorem C22_insert_end_violated : ∃ w rs p,
    runW ⟨.unchecked, .returns⟩ (start Unit [⟨none, none⟩, ⟨none, none⟩])
      [((), .pushBack 0), ((), .pushBack 1), ((), .remove 0), ((), .insert none 0)] =
        .ok (w, rs, p) ∧
    ∀ fuel, walk w.heap fuel (w.lists ()).head = .ub := by
  refine ⟨_, _, _, rfl, ?_⟩
  have key : ∀ fuel, walk [⟨some 1, some 1⟩, ⟨none, some 0⟩] fuel (some 1) = .ub ∧
      walk [⟨some 1, some 1⟩, ⟨none, some 0⟩] fuel (some 0) = .ub := by
    intro fuel
    induction fuel with
    | zero => exact ⟨rfl, rfl⟩
    | succ fuel ih => exact ⟨by simp [walk, rd, arrGet, ih.2], by simp [walk, rd, arrGet, ih.1]⟩
  exact fun fuel => (key fuel).1

/-- **C22, remove.** In every reachable state of either policy, `remove(n)` deletes exactly `n`
and keeps the order of the others. -/
theorem C22_remove {ι : Type} [DecidableEq ι] {c : Cfg} {h : Heap}
    (hf : Fresh c h) {ops : List (ι × Op)} {ls : ι → List Nat} {rs : List Out}
    (hs : SpecRun c h.length (fun _ => []) ops ls rs) {i : ι} {A B : List Nat} {n : Nat}
    (hx : ls i = A ++ n :: B) :
    ∃ w w', runW c (start ι h) ops = .ok (w, rs, 0) ∧
      stepW c w i (.remove n) = .ok (w', .unit, 0) ∧
      walk w'.heap h.length (w'.lists i).head = .ok (A ++ B) ∧
      walkBack w'.heap h.length (w'.lists i).tail = .ok (A ++ B).reverse := by
  obtain ⟨w, e, hw, hl⟩ := runW_ok hs (start_ok (ι := ι) hf) rfl
  have w0 := hw.wf i
  rw [hx] at w0
  obtain ⟨h', l', e', d⟩ := remove_ok (c := c) w0
  refine ⟨w, ⟨h', fun j => if j = i then l' else w.lists j⟩, e, by simp [stepW, step, e'], ?_, ?_⟩
  · have hlen := wf_len d.wf
    rw [d.len, hl] at hlen
    simp only [↓reduceIte]
    rw [d.wf.head]
    exact walk_ok _ d.wf.links hlen
  · have hlen := wf_len d.wf
    rw [d.len, hl] at hlen
    simp only [↓reduceIte]
    rw [d.wf.tail, List.getLast?_eq_head?_reverse]
    exact walkBack_ok _ (q := none) (by simpa using d.wf.links) (by rw [List.length_reverse]; exact hlen)

/-! ## The hypotheses are met -/

/-- A checked heap of three nodes. -/
def heap3 : Heap := [⟨none, none⟩, ⟨none, none⟩, ⟨none, none⟩]

example : Fresh ⟨.checked, .noreturn⟩ heap3 := by intro _ nd h; simp [heap3] at h; exact h

/-- An interleaved history over two lists, with reuse of node 0. -/
def ops3 : List (Bool × Op) :=
  [(true, .pushBack 0), (false, .pushFront 1), (true, .pushFront 2), (true, .iterate),
   (true, .remove 0), (false, .insert (some 1) 0), (false, .iterateBack), (true, .popBack)]

theorem ops3_spec : SpecRun ⟨.checked, .noreturn⟩ heap3.length (fun _ => []) ops3
    (fun j => if j = true then [] else [0, 1])
    [.unit, .unit, .unit, .nodes [2, 0], .unit, .unit, .nodes [1, 0], .node (some 2)] := by
  have fin : ∀ ls ls' : Bool → List Nat, ls = ls' →
      SpecRun ⟨.checked, .noreturn⟩ heap3.length ls [] ls' [] := by
    rintro ls _ rfl; exact .nil _
  unfold ops3
  refine .cons (l' := [0]) rfl (by simp [NodeOk, Op.added, heap3]) ?_
  refine .cons (l' := [1]) rfl (by simp [NodeOk, Op.added, heap3]) ?_
  refine .cons (l' := [2, 0]) rfl (by simp [NodeOk, Op.added, heap3]) ?_
  refine .cons (l' := [2, 0]) rfl (by simp [NodeOk, Op.added]) ?_
  refine .cons (l' := [2]) rfl (by simp [NodeOk, Op.added]) ?_
  refine .cons (l' := [0, 1]) rfl (by simp [NodeOk, Op.added, heap3]) ?_
  refine .cons (l' := [0, 1]) rfl (by simp [NodeOk, Op.added]) ?_
  refine .cons (l' := []) rfl (by simp [NodeOk, Op.added]) ?_
  refine fin _ _ ?_
  funext j; cases j <;> rfl

/-- C18/C19/C20: the history above runs and list `false` ends as `0, 1`. -/
example : ∃ w', runW ⟨.checked, .noreturn⟩ (start Bool heap3) ops3 = .ok (w',
    [.unit, .unit, .unit, .nodes [2, 0], .unit, .unit, .nodes [1, 0], .node (some 2)], 0) ∧
    walk w'.heap w'.heap.length (w'.lists false).head = .ok [0, 1] := by
  obtain ⟨w', e, hw⟩ := C18_intrusive_list_refines_sequence_partial
    (by intro _ nd h; simp [heap3] at h; exact h) ops3_spec
  exact ⟨w', e, (hw false).1⟩

/-- C21: after the history above node 0 is a member of a two-node list. -/
example : ∃ w, runW ⟨.checked, .noreturn⟩ (start Bool heap3) ops3 = .ok (w,
    [.unit, .unit, .unit, .nodes [2, 0], .unit, .unit, .nodes [1, 0], .node (some 2)], 0) ∧
    stepW ⟨.checked, .noreturn⟩ w true (.pushBack 0) = .panic := by
  obtain ⟨w, e, hp, _⟩ := C21_checked_detects_member_partial (i := true) (j := false) (n := 0)
    (o := .pushBack 0) rfl (by intro _ nd h; simp [heap3] at h; exact h) ops3_spec
    (by simp) (by simp) rfl
  exact ⟨w, e, hp rfl⟩

/-- C21 violated, C22 violated: a one-node list is reachable. -/
example : ∃ ls rs, SpecRun (ι := Unit) ⟨.checked, .noreturn⟩ 1 (fun _ => []) [((), .pushBack 0)]
    ls rs ∧ ls () = [0] :=
  ⟨_, _, .cons (l' := [0]) rfl (by simp [NodeOk, Op.added]) (.nil _), rfl⟩

/-- C22: in the history above `insert` and `remove` apply to list `false` = `0, 1` with the free
node 2 (unchecked policy shown with stale links in the heap). -/
example : ∃ ls rs, SpecRun (ι := Unit) ⟨.unchecked, .returns⟩ 3 (fun _ => [])
    [((), .pushBack 0), ((), .pushBack 1)] ls rs ∧ ls () = [0] ++ 1 :: [] ∧ ∀ j, 2 ∉ ls j :=
  ⟨_, _, .cons (l' := [0]) rfl (by simp [NodeOk, Op.added])
    (.cons (l' := [0, 1]) rfl (by simp [NodeOk, Op.added]) (.nil _)), rfl, by simp⟩

example : Fresh ⟨.unchecked, .returns⟩ [⟨some 2, some 1⟩, ⟨none, some 7⟩, ⟨some 0, some 0⟩] := by
  intro h; exact absurd h (by decide)

end Verif.IList
