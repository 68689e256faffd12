import Verif.FList.Lemmas

/-!
# Properties of `stdx::intrusive_forward_list` (C23, C77, C78)
-/

namespace Verif.FList

open Verif.IList (Ptr Node Heap Policy Handler rd_ok rd_eq setNext_eq)

/-- The state before any operation: all lists empty. -/
def start (ι : Type) (h : Heap) : World ι := ⟨h, fun _ => ⟨none, none⟩⟩

/-- With the checked policy nodes start with null links (`prev` only if there is one); with the
unchecked policy the links hold anything. -/
def Fresh (c : Cfg) (h : Heap) : Prop :=
  c.policy = .checked → ∀ nd ∈ h, nd.next = none ∧ (c.hasPrev = true → nd.prev = none)

theorem start_ok {ι : Type} {c : Cfg} {h : Heap} (hf : Fresh c h) :
    WorldOk c (start ι h) (fun _ => []) := by
  refine ⟨fun _ => ⟨by simp, rfl, rfl, trivial⟩, by simp, ?_⟩
  intro hp a ha _
  have ha' : a < h.length := ha
  have hm := hf hp _ (List.getElem_mem ha')
  refine ⟨h[a].prev, ?_, hm.2⟩
  show h[a]? = _
  rw [List.getElem?_eq_getElem ha', ← hm.1]

/-- **C23.** Every history over any number of forward lists and nodes that respects the node
preconditions ends without undefined behaviour and without a panic, every call returns what the
abstract sequences say, and iterating a list yields exactly its sequence. -/
theorem C23_forward_list_refines_sequence {ι : Type} [DecidableEq ι] {c : Cfg} {h : Heap}
    (hf : Fresh c h) {ops : List (ι × Op)} {ls' : ι → List Nat} {rs : List Out}
    (hs : SpecRun h.length (fun _ => []) ops ls' rs) :
    ∃ w', runW c (start ι h) ops = .ok (w', rs, 0) ∧
      ∀ i, walk w'.heap w'.heap.length (w'.lists i).head = .ok (ls' i) ∧
        (w'.lists i).head = (ls' i).head? ∧ (w'.lists i).tail = (ls' i).getLast? := by
  obtain ⟨w', e, hw, _⟩ := runW_ok hs (start_ok (ι := ι) hf) rfl
  refine ⟨w', e, fun i => ?_⟩
  have w := hw.wf i
  exact ⟨by rw [w.head]; exact walk_ok _ w.links (wf_len w), w.head, w.tail⟩

/-- `front`, `back` and `pop_front` on an empty forward list are undefined. -/
theorem C23_empty_access_undefined {ι : Type} [DecidableEq ι] {c : Cfg} {w : World ι}
    {ls : ι → List Nat} (hw : WorldOk c w ls) {i : ι} (he : ls i = []) :
    stepW c w i .front = .ub ∧ stepW c w i .back = .ub ∧ stepW c w i .popFront = .ub := by
  have w0 := hw.wf i
  have hh := w0.head
  have ht := w0.tail
  rw [he] at hh ht
  simp at hh ht
  simp [stepW, step, refTo, popFront, IList.rd, hh, ht]

/-- **C77.** With the checked policy, after any history in which nodes are pushed only while in
no list, no panic has happened and pushing any node that is in no list succeeds without one. -/
theorem C77_forward_list_checked_reuse {ι : Type} [DecidableEq ι] {c : Cfg} {h : Heap}
    (hf : Fresh c h) {ops : List (ι × Op)} {ls : ι → List Nat}
    {rs : List Out} (hs : SpecRun h.length (fun _ => []) ops ls rs) :
    ∃ w, runW c (start ι h) ops = .ok (w, rs, 0) ∧
      ∀ n, n < h.length → (∀ j, n ∉ ls j) →
        (c.policy = .checked → ∃ nd, w.heap[n]? = some nd ∧ nd.next = none) ∧
        ∀ i, (∃ w', stepW c w i (.pushFront n) = .ok (w', .unit, 0)) ∧
          (∃ w', stepW c w i (.pushBack n) = .ok (w', .unit, 0)) := by
  obtain ⟨w, e, hw, hl⟩ := runW_ok hs (start_ok (ι := ι) hf) rfl
  refine ⟨w, e, fun n hn hfree => ⟨fun hc => ?_, fun i => ?_⟩⟩
  · obtain ⟨p, e1, _⟩ := hw.free hc n (by rw [hl]; exact hn) hfree
    exact ⟨_, e1, rfl⟩
  · have go : ∀ (o : Op) (L' : List Nat), specStep (ls i) o = some (L', .unit) → o.added = some n →
        ∃ w', stepW c w i o = .ok (w', .unit, 0) := by
      intro o L' ho ha
      obtain ⟨w', e', _⟩ := stepW_ok hw ho (fun m hm => by
        rw [ha] at hm; cases hm; exact ⟨by rw [hl]; exact hn, hfree⟩)
      exact ⟨w', e'⟩
    exact ⟨go _ _ rfl rfl, go _ _ rfl rfl⟩

/-- **C78, partial.** With the checked policy, in every reachable state, pushing a node that is a
member of a list but not its last node calls the panic handler.  Missing: the last node of a
list, see `C78_tail_repush_violated`. -/
theorem C78_forward_list_detects_member_partial {ι : Type} [DecidableEq ι] {c : Cfg} {h : Heap}
    (hc : c.policy = .checked) (hf : Fresh c h) {ops : List (ι × Op)} {ls : ι → List Nat}
    {rs : List Out} (hs : SpecRun h.length (fun _ => []) ops ls rs)
    {i j : ι} {n : Nat} (hn : n ∈ (ls j).dropLast) {o : Op} (ho : o.added = some n) :
    ∃ w, runW c (start ι h) ops = .ok (w, rs, 0) ∧
      (c.handler = .noreturn → stepW c w i o = .panic) ∧
      (c.handler = .returns → ∀ w' r p, stepW c w i o = .ok (w', r, p) → p = 1) := by
  obtain ⟨w, e, hw, hl⟩ := runW_ok hs (start_ok (ι := ι) hf) rfl
  have hne : ls j ≠ [] := by rintro e; simp [e] at hn
  have hlk := (hw.wf j).links
  rw [← List.dropLast_concat_getLast hne] at hlk
  obtain ⟨A, B, hAB⟩ := List.append_of_mem hn
  rw [hAB, List.append_assoc, links_append] at hlk
  obtain ⟨p0, hnd⟩ := hlk.2.1
  have hck : check c w.heap n = match c.handler with | .returns => .ok 1 | .noreturn => .panic := by
    unfold check validForPush
    simp only [hc, rd_ok hnd, Outcome.ok_bind, Outcome.pure_eq_ok]
    cases c.hasPrev <;> cases c.handler <;> cases B <;> simp
  refine ⟨w, e, ?_, ?_⟩
  · intro hh
    rw [hh] at hck
    cases o <;> simp [Op.added] at ho <;> subst ho
    · simp [stepW, step, pushFront, hck]
    · simp [stepW, step, pushBack, hck]
  · intro hh w' r p hst
    rw [hh] at hck
    have fin : ∀ (x : Outcome (Heap × Lst)),
        (do let (r, p) ← (do let p ← check c w.heap n; let r ← x; return (r, p))
            return (r, Out.unit, p) : Outcome ((Heap × Lst) × Out × Nat)) >>=
          (fun y => (.ok (⟨y.1.1, fun j => if j = i then y.1.2 else w.lists j⟩, y.2.1, y.2.2) :
            Outcome (World ι × Out × Nat))) = .ok (w', r, p) → p = 1 := by
      intro x hq
      rw [hck] at hq
      cases x with
      | ok q => simp at hq; exact hq.2.2.symm
      | ub => simp at hq
      | panic => simp at hq
    cases o <;> simp [Op.added] at ho <;> subst ho
    · exact fin (uncheckedPushFront w.heap (w.lists i) _) hst
    · exact fin (uncheckedPushBack w.heap (w.lists i) _) hst

/-- **C78, whole histories, partial.** A history in which nodes are added only while they are in no list,
followed by adding a member of a list that is not its last node, ends in the panic handler if that does not return, and otherwise
has called it exactly once in total. -/
theorem C78_history_partial {ι : Type} [DecidableEq ι] {c : Cfg} {h : Heap}
    (hc : c.policy = .checked) (hf : Fresh c h) {ops : List (ι × Op)} {ls : ι → List Nat}
    {rs : List Out} (hs : SpecRun h.length (fun _ => []) ops ls rs)
    {i j : ι} {n : Nat} (hn : n ∈ (ls j).dropLast) {o : Op} (ho : o.added = some n) :
    (c.handler = .noreturn → runW c (start ι h) (ops ++ [(i, o)]) = .panic) ∧
    (c.handler = .returns → ∀ w' rs' p, runW c (start ι h) (ops ++ [(i, o)]) = .ok (w', rs', p) → p = 1) := by
  obtain ⟨w, e, h1, h2⟩ := C78_forward_list_detects_member_partial (i := i) hc hf hs hn ho
  rw [runW_snoc, e, Outcome.ok_bind]
  refine ⟨fun hh => by rw [h1 hh]; rfl, fun hh w' rs' p hp => ?_⟩
  simp only at hp
  cases hst : stepW c w i o with
  | ok y =>
    rw [hst] at hp
    simp only [Outcome.ok_bind, Outcome.ok.injEq, Prod.mk.injEq, Nat.zero_add] at hp
    rw [← hp.2.2]
    exact h2 hh _ _ _ hst
  | ub => rw [hst] at hp; simp at hp
  | panic => rw [hst] at hp; simp at hp

/-- **C78 does not hold in full.** The `next` link of the last node is null, so in every
reachable state (node type without `prev`) `push_front` of the last node of a list on that list
calls no panic handler and turns the list into a cycle: iteration never reaches `end()`. -/
theorem C78_tail_repush_violated {ι : Type} [DecidableEq ι] {c : Cfg} {h : Heap}
    (hp : c.hasPrev = false) (hf : Fresh c h) {ops : List (ι × Op)} {ls : ι → List Nat}
    {rs : List Out} (hs : SpecRun h.length (fun _ => []) ops ls rs)
    {i : ι} {A : List Nat} {n : Nat} (hn : ls i = A ++ [n]) :
    ∃ w w', runW c (start ι h) ops = .ok (w, rs, 0) ∧
      stepW c w i (.pushFront n) = .ok (w', .unit, 0) ∧
      ∀ fuel, walk w'.heap fuel (w'.lists i).head = .ub := by
  obtain ⟨w, e, hw, hl⟩ := runW_ok hs (start_ok (ι := ι) hf) rfl
  have w0 := hw.wf i
  rw [hn] at w0
  have hh := w0.head
  have ht := w0.tail
  have hlk := w0.links
  rw [links_append] at hlk
  obtain ⟨p, hx⟩ := hlk.2.1
  simp at hx ht
  obtain ⟨hlt, hg⟩ := List.getElem?_eq_some_iff.mp hx
  have hck : check c w.heap n = .ok 0 := check_ok (fun _ => ⟨p, hx, by simp [hp]⟩)
  have htn : ¬ (w.lists i).tail = none := by rw [ht]; simp
  refine ⟨w, ⟨w.heap.set n ⟨p, (w.lists i).head⟩,
    fun j => if j = i then ⟨some n, some n⟩ else w.lists j⟩, e, ?_, ?_⟩
  · simp [stepW, step, pushFront, hck, uncheckedPushFront, ht, setNext_eq, hlt, hg]
  · simp only [↓reduceIte]
    have hnd := List.nodup_append.mp w0.nodup
    -- every node of the cycle is followed by another node of the cycle
    have hcyc : ∀ a ∈ A ++ [n], ∃ b ∈ A ++ [n], ∃ q,
        (w.heap.set n ⟨p, (w.lists i).head⟩)[a]? = some ⟨q, some b⟩ := by
      intro a ha
      by_cases han : a = n
      · subst han
        refine ⟨(A ++ [a]).head (by simp), List.head_mem _, p, ?_⟩
        rw [List.getElem?_set_self hlt, hh, List.head?_eq_some_head (by simp)]
      · have haA : a ∈ A := by simp [han] at ha; exact ha
        obtain ⟨A1, A2, rfl⟩ := List.append_of_mem haA
        have hl1 := hlk.1
        rw [links_append] at hl1
        obtain ⟨q, hq⟩ := hl1.2.1
        refine ⟨(A2 ++ [n]).head (by simp), ?_, q, ?_⟩
        · have := List.head_mem (l := A2 ++ [n]) (by simp)
          simp only [List.append_assoc, List.cons_append, List.mem_append, List.mem_cons] at this ⊢
          grind
        · rw [List.getElem?_set_ne (fun e => han e.symm), hq]
          cases A2 <;> simp
    have : ∀ fuel, ∀ a ∈ A ++ [n],
        walk (w.heap.set n ⟨p, (w.lists i).head⟩) fuel (some a) = .ub := by
      intro fuel
      induction fuel with
      | zero => intro a _; rfl
      | succ fuel ih =>
        intro a ha
        obtain ⟨b, hb, q, hq⟩ := hcyc a ha
        simp only [walk, rd_ok hq, Outcome.ok_bind, ih b hb, Outcome.ub_bind]
    exact fun fuel => this fuel n (by simp)

/-! ## The hypotheses are met -/

/-- Nodes without `prev` (the `prev` field is arbitrary). -/
def heap3 : Heap := [⟨some 9, none⟩, ⟨none, none⟩, ⟨none, none⟩]

example : Fresh ⟨.checked, .noreturn, false⟩ heap3 := by
  intro _ nd h; simp [heap3] at h; rcases h with rfl | rfl <;> simp

theorem ops3_spec : SpecRun (ι := Bool) heap3.length (fun _ => [])
    [(true, .pushBack 0), (false, .pushFront 1), (true, .pushFront 2), (true, .iterate),
     (true, .popFront), (false, .pushBack 2), (false, .back)]
    (fun j => if j = true then [0] else [1, 2])
    [.unit, .unit, .unit, .nodes [2, 0], .node (some 2), .unit, .node (some 2)] := by
  have fin : ∀ ls ls' : Bool → List Nat, ls = ls' → SpecRun heap3.length ls [] ls' [] := by
    rintro ls _ rfl; exact .nil _
  refine .cons (l' := [0]) rfl (by simp [NodeOk, Op.added, heap3]) ?_
  refine .cons (l' := [1]) rfl (by simp [NodeOk, Op.added, heap3]) ?_
  refine .cons (l' := [2, 0]) rfl (by simp [NodeOk, Op.added, heap3]) ?_
  refine .cons (l' := [2, 0]) rfl (by simp [NodeOk, Op.added]) ?_
  refine .cons (l' := [0]) rfl (by simp [NodeOk, Op.added]) ?_
  refine .cons (l' := [1, 2]) rfl (by simp [NodeOk, Op.added, heap3]) ?_
  refine .cons (l' := [1, 2]) rfl (by simp [NodeOk, Op.added]) ?_
  refine fin _ _ ?_
  funext j; cases j <;> rfl

example : ∃ w', runW ⟨.checked, .noreturn, false⟩ (start Bool heap3)
    [(true, .pushBack 0), (false, .pushFront 1), (true, .pushFront 2), (true, .iterate),
     (true, .popFront), (false, .pushBack 2), (false, .back)] = .ok (w',
    [.unit, .unit, .unit, .nodes [2, 0], .node (some 2), .unit, .node (some 2)], 0) := by
  obtain ⟨w', e, _⟩ := C23_forward_list_refines_sequence (c := ⟨.checked, .noreturn, false⟩)
    (by intro _ nd h; simp [heap3] at h; rcases h with rfl | rfl <;> simp) ops3_spec
  exact ⟨w', e⟩

/-- C78: after the history node 1 is a member and not last; node 2 is last. -/
example : (1 : Nat) ∈ ([1, 2] : List Nat).dropLast ∧ ([1, 2] : List Nat) = [1] ++ [2] := by simp

end Verif.FList
