import Verif.IList.Props

/-!
# Removing a node that is not in the list (C123)

`remove` (intrusive_list.hpp:173-190) looks only at the links of the node; neither policy checks that the node is a member of the
list (list_common.hpp:82-88, 114).
-/

namespace Verif.IList

/-- What `remove` does with the nodes does not depend on the list object; its `head` changes if the node has no predecessor, its
`tail` if it has no successor. -/
theorem remove_lst {c : Cfg} {h h' : Heap} {l l' : Lst} {n : Nat} {nd : Node} (hn : h[n]? = some nd)
    (e : remove c h l n = .ok (h', l')) (k : Lst) :
    remove c h k n = .ok (h', ⟨if nd.prev = none then nd.next else k.head, if nd.next = none then nd.prev else k.tail⟩) := by
  obtain ⟨p, q⟩ := nd
  have key : ∀ m : Lst, remove c h m n =
      ((if p = none then (.ok h : Outcome Heap) else setNext h p q) >>= fun h1 =>
        (if q = none then (.ok h1 : Outcome Heap) else setPrev h1 q p) >>= fun h2 => onPop c h2 (some n) >>= fun h3 =>
          .ok (h3, ⟨if p = none then q else m.head, if q = none then p else m.tail⟩)) := by
    intro m
    simp only [remove, rd_ok hn, Outcome.ok_bind]
    by_cases hp : p = none <;> by_cases hq : q = none
    · simp only [hp, hq, if_true, Outcome.ok_bind, Outcome.pure_eq_ok]
    · simp only [hp, hq, if_true, if_false, Outcome.ok_bind, Outcome.pure_eq_ok]
      cases setPrev h q none <;> rfl
    · simp only [hp, hq, if_true, if_false, Outcome.pure_eq_ok]
      cases setNext h p none <;> rfl
    · simp only [hp, hq, if_false, Outcome.pure_eq_ok]
      cases setNext h p q with
      | ok h1 => simp only [Outcome.ok_bind]; cases setPrev h1 q p <;> rfl
      | ub => rfl
      | panic => rfl
  rw [key] at e ⊢
  obtain ⟨h1, e1, e⟩ := Outcome.bind_eq_ok.mp e
  obtain ⟨h2, e2, e⟩ := Outcome.bind_eq_ok.mp e
  obtain ⟨h3, e3, e⟩ := Outcome.bind_eq_ok.mp e
  simp only [Outcome.ok.injEq, Prod.mk.injEq] at e
  rw [e1, Outcome.ok_bind, e2, Outcome.ok_bind, e3, Outcome.ok_bind, e.1]

/-- Removing a member through its own list, and through another list object. -/
theorem remove_through {ι : Type} [DecidableEq ι] {c : Cfg} {w : World ι} {ls : ι → List Nat} (hw : WorldOk c w ls) {j : ι} {n : Nat}
    {A B : List Nat} (hj : ls j = A ++ n :: B) (i : ι) :
    ∃ h', WorldOk c ⟨h', fun m => if m = j then ⟨(A ++ B).head?, (A ++ B).getLast?⟩ else w.lists m⟩
        (fun m => if m = j then A ++ B else ls m) ∧ h'.length = w.heap.length ∧
      stepW c w i (.remove n) = .ok (⟨h', fun m => if m = i then
        ⟨if A = [] then B.head? else (w.lists i).head, if B = [] then A.getLast? else (w.lists i).tail⟩ else w.lists m⟩, .unit, 0) := by
  have wf := hw.wf j
  have hnd := wf.nodup
  rw [hj] at hnd
  have hAB : n ∉ A ++ B := (List.nodup_cons.mp (List.perm_middle.nodup_iff.mp hnd)).1
  have hfil : (ls j).filter (· ≠ n) = A ++ B := by
    rw [hj]
    simp only [List.mem_append, not_or] at hAB
    rw [List.filter_append, List.filter_cons_of_neg (by simp), List.filter_eq_self.mpr, List.filter_eq_self.mpr]
    · intro a ha; simp; rintro rfl; exact hAB.2 ha
    · intro a ha; simp; rintro rfl; exact hAB.1 ha
  have hsp : specStep (ls j) (.remove n) = some (A ++ B, .unit) := by
    simp only [specStep, hfil]
    rw [if_pos (by rw [hj]; simp)]
  obtain ⟨w', e, hlen, hw', _⟩ := stepW_ok hw hsp ⟨by simp [Op.added], by simp⟩
  have hl := wf.links
  rw [hj, links_append] at hl
  have hlk := hl.2.1
  simp only [Option.or_none] at hlk
  unfold stepW at e
  obtain ⟨⟨⟨h1, l1⟩, r1, p1⟩, e1, e2⟩ := Outcome.bind_eq_ok.mp e
  simp only [step] at e1
  obtain ⟨⟨h2, l2⟩, e3, e4⟩ := Outcome.bind_eq_ok.mp e1
  simp only [Outcome.pure_eq_ok, Outcome.ok.injEq, Prod.mk.injEq] at e4 e2
  obtain ⟨⟨rfl, rfl⟩, rfl, rfl⟩ := e4
  obtain ⟨rfl, -, -⟩ := e2
  have hth := remove_lst hlk e3 (w.lists i)
  have hwj := hw'.wf j
  simp only [if_true] at hwj
  have hl2 : l2 = ⟨(A ++ B).head?, (A ++ B).getLast?⟩ := by
    obtain ⟨a, b⟩ := l2
    have q1 := hwj.head; have q2 := hwj.tail
    simp only at q1 q2
    rw [q1, q2]
  refine ⟨h2, by rw [hl2] at hw'; exact hw', hlen, ?_⟩
  simp only [stepW, step, hth, Outcome.ok_bind, Outcome.pure_eq_ok]
  simp

/-- **C123, partial.** In every reachable state, removing a node that has a predecessor and a successor takes it out of the list
it is in, whichever list object `remove` is called on, and no list changes otherwise. Missing: the first and last nodes of other lists
and nodes in no list, see below. -/
theorem C123_inner_partial {ι : Type} [DecidableEq ι] {c : Cfg} {h : Heap} (hf : Fresh c h) {ops : List (ι × Op)} {ls : ι → List Nat}
    {rs : List Out} (hs : SpecRun c h.length (fun _ => []) ops ls rs) (i : ι) {j : ι} {n : Nat} {A B : List Nat}
    (hj : ls j = A ++ n :: B) (hA : A ≠ []) (hB : B ≠ []) :
    ∃ w w', runW c (start ι h) ops = .ok (w, rs, 0) ∧ stepW c w i (.remove n) = .ok (w', .unit, 0) ∧
      walk w'.heap h.length (w'.lists j).head = .ok (A ++ B) ∧
      walkBack w'.heap h.length (w'.lists j).tail = .ok (A ++ B).reverse ∧
      ∀ m, m ≠ j → walk w'.heap h.length (w'.lists m).head = .ok (ls m) ∧
        walkBack w'.heap h.length (w'.lists m).tail = .ok (ls m).reverse := by
  obtain ⟨w, e, hw, hlen⟩ := runW_ok hs (start_ok (ι := ι) hf) rfl
  have hlen : w.heap.length = h.length := hlen
  obtain ⟨h', hw', hl', e'⟩ := remove_through hw hj i
  have hwalk : ∀ m, walk h' h.length (w.lists m).head = .ok (if m = j then A ++ B else ls m) ∧
      walkBack h' h.length (w.lists m).tail = .ok (if m = j then A ++ B else ls m).reverse := by
    intro m
    have k := hw'.wf m
    have kl := wf_len k
    simp only at kl
    have hd : (w.lists m).head = (if m = j then A ++ B else ls m).head? := by
      rw [(hw.wf m).head]
      by_cases hm : m = j
      · subst hm
        rw [hj, if_pos rfl]
        cases A with
        | nil => exact absurd rfl hA
        | cons a A => rfl
      · rw [if_neg hm]
    have tl : (w.lists m).tail = (if m = j then A ++ B else ls m).getLast? := by
      rw [(hw.wf m).tail]
      by_cases hm : m = j
      · subst hm
        rw [hj, if_pos rfl]
        cases B with
        | nil => exact absurd rfl hB
        | cons b B => simp [List.getLast?_append, List.getLast?_cons]
      · rw [if_neg hm]
    rw [hd, tl, List.getLast?_eq_head?_reverse]
    exact ⟨walk_ok _ k.links (by omega), walkBack_ok _ (q := none) (by simpa using k.links) (by simp only [List.length_reverse]; omega)⟩
  have hsame : (fun m => if m = i then (⟨if A = [] then B.head? else (w.lists i).head, if B = [] then A.getLast? else (w.lists i).tail⟩ : Lst)
      else w.lists m) = w.lists := by
    funext m
    by_cases hm : m = i
    · subst hm; simp [hA, hB]
    · simp [hm]
  rw [hsame] at e'
  refine ⟨w, _, e, e', by simpa using (hwalk j).1, by simpa using (hwalk j).2, fun m hm => by simpa [hm] using hwalk m⟩

/-- **C123 does not hold for nodes in no list.** With the checked policy, in every reachable state, removing a node that is in no list,
or the only node of another list, calls no panic handler but leaves the list empty. Its nodes keep their links, so
that if there were two or more, adding any of them again calls the panic handler. -/
theorem C123_unlinked_violated {ι : Type} [DecidableEq ι] {c : Cfg} {h : Heap} (hc : c.policy = .checked) (hf : Fresh c h)
    {ops : List (ι × Op)} {ls : ι → List Nat} {rs : List Out} (hs : SpecRun c h.length (fun _ => []) ops ls rs) (i : ι) {n : Nat}
    (hn : n < h.length) (hfree : (∀ j, n ∉ ls j) ∨ ∃ j, j ≠ i ∧ ls j = [n]) :
    ∃ w w', runW c (start ι h) ops = .ok (w, rs, 0) ∧ stepW c w i (.remove n) = .ok (w', .unit, 0) ∧
      stepW c w' i .empty = .ok (w', .bool true, 0) ∧ walk w'.heap h.length (w'.lists i).head = .ok [] ∧
      (∀ m, m ≠ i → walk w'.heap h.length (w'.lists m).head = .ok (ls m)) ∧
      (2 ≤ (ls i).length → ∀ x ∈ ls i, ∀ m o, o.added = some x →
        (c.handler = .noreturn → stepW c w' m o = .panic) ∧ check c w'.heap x ≠ .ok 0) := by
  obtain ⟨w, e, hw, hlen⟩ := runW_ok hs (start_ok (ι := ι) hf) rfl
  have hlen : w.heap.length = h.length := hlen
  have hnull : w.heap[n]? = some ⟨none, none⟩ := by
    rcases hfree with hfree | ⟨j, _, hj⟩
    · exact hw.free hc n (by rw [hlen]; exact hn) hfree
    · have := (hw.wf j).links
      rw [hj] at this
      simpa using this.1
  obtain ⟨hnl, hg⟩ := List.getElem?_eq_some_iff.mp hnull
  have hset : w.heap.set n ⟨none, none⟩ = w.heap := by
    conv => lhs; rw [← hg]
    exact List.set_getElem_self hnl
  have hst : stepW c w i (.remove n) = .ok (⟨w.heap, fun m => if m = i then ⟨none, none⟩ else w.lists m⟩, .unit, 0) := by
    have : remove c w.heap (w.lists i) n = .ok (w.heap, ⟨none, none⟩) := by
      simp [remove, rd_ok hnull, onPop, hc, setPrev_ok hnull, setNext_ok hnull, hset]
    simp [stepW, step, this]
  refine ⟨w, _, e, hst, ?_, ?_, fun m hm => ?_, fun h2 x hx m o ho => ?_⟩
  · simp only [stepW, step, Outcome.ok_bind, Outcome.pure_eq_ok, if_true]
    congr 2
    · congr 1
      funext m
      by_cases hm : m = i <;> simp [hm]
  · simp only [if_true]; cases h.length <;> rfl
  · simp only [hm, if_false]
    rw [(hw.wf m).head]
    exact walk_ok _ (hw.wf m).links (by rw [← hlen]; exact wf_len (hw.wf m))
  · obtain ⟨nd, hnd, hlk⟩ := member_linked (hw.wf i) h2 hx
    have hck := check_linked hc hnd hlk
    refine ⟨fun hh => ?_, ?_⟩
    · rw [hh] at hck
      cases o <;> simp [Op.added] at ho <;> subst ho
      · simp [stepW, step, pushFront, hck]
      · simp [stepW, step, pushBack, hck]
      · simp only [stepW, step, insert]
        split <;> simp [pushBack, hck]
    · show check c w.heap x ≠ .ok 0
      rw [hck]; cases c.handler <;> simp

/-- **C123 does not hold for the first nodes of other lists.** In every reachable state, removing the first node of another list
that has two or more calls no panic handler. The list then runs through the remaining nodes of the other list, its own
nodes are lost to it, and with the checked policy the other list has only the removed node. -/
theorem C123_first_of_other_violated {ι : Type} [DecidableEq ι] {c : Cfg} {h : Heap} (hf : Fresh c h) {ops : List (ι × Op)}
    {ls : ι → List Nat} {rs : List Out} (hs : SpecRun c h.length (fun _ => []) ops ls rs) {i j : ι} (hij : i ≠ j) {n x : Nat} {B : List Nat}
    (hj : ls j = n :: x :: B) :
    ∃ w w', runW c (start ι h) ops = .ok (w, rs, 0) ∧ stepW c w i (.remove n) = .ok (w', .unit, 0) ∧
      walk w'.heap h.length (w'.lists i).head = .ok (x :: B) ∧
      (w'.lists i).tail = (ls i).getLast? ∧
      (w'.lists j).head = some n ∧
      (c.policy = .checked → walk w'.heap h.length (w'.lists j).head = .ok [n]) := by
  obtain ⟨w, e, hw, hlen⟩ := runW_ok hs (start_ok (ι := ι) hf) rfl
  have hlen : w.heap.length = h.length := hlen
  obtain ⟨h', hw', hl', e'⟩ := remove_through hw (A := []) hj i
  have k := hw'.wf j
  simp only [if_true, List.nil_append] at k
  have kl := wf_len k
  have hnlt : n < h'.length := by
    rw [hl']
    exact links_lt _ (hw.wf j).links n (by rw [hj]; simp)
  have hnd := (hw.wf j).nodup
  rw [hj] at hnd
  have hhead : (w.lists j).head = some n := by rw [(hw.wf j).head, hj]; rfl
  refine ⟨w, _, e, e', ?_, ?_, ?_, fun hc => ?_⟩
  · simp only [if_true]
    exact walk_ok (x :: B) k.links (by omega)
  · simpa using (hw.wf i).tail
  · simpa [hij.symm] using hhead
  · have hfr : h'[n]? = some ⟨none, none⟩ := by
      refine hw'.free hc n hnlt fun m => ?_
      by_cases hm : m = j
      · simp only [hm, if_true, List.nil_append]; exact (List.nodup_cons.mp hnd).1
      · simp only [hm, if_false]
        exact hw.disj j m (fun e => hm e.symm) n (by rw [hj]; simp)
    simp only [hij.symm, if_false, hhead]
    exact walk_ok [n] (p := none) ⟨by simpa using hfr, trivial⟩ (by simp; omega)

/-- What `push_back` does with the nodes depends only on the tail of the list object. -/
theorem pushBack_tail {c : Cfg} {h h' : Heap} {l l' k : Lst} {y p : Nat} (e : pushBack c h l y = .ok ((h', l'), p)) (hk : k.tail = l.tail) :
    pushBack c h k y = .ok ((h', ⟨if k.head = none then some y else k.head, some y⟩), p) := by
  have key : ∀ m : Lst, uncheckedPushBack h m y =
      ((if m.tail ≠ none then setNext h m.tail (some y) else .ok h) >>= fun h1 => setPrev h1 (some y) m.tail >>= fun h2 =>
        setNext h2 (some y) none >>= fun h3 => .ok (h3, ⟨if m.head = none then some y else m.head, some y⟩)) := by
    intro m
    unfold uncheckedPushBack
    by_cases hm : m.tail = none <;> simp only [hm, ne_eq, not_true_eq_false, not_false_eq_true, if_true, if_false] <;> rfl
  unfold pushBack at e ⊢
  rw [key] at e ⊢
  rw [hk]
  obtain ⟨q, e1, e⟩ := Outcome.bind_eq_ok.mp e
  obtain ⟨⟨h3, l3⟩, e2, e⟩ := Outcome.bind_eq_ok.mp e
  obtain ⟨h4, e4, e2⟩ := Outcome.bind_eq_ok.mp e2
  obtain ⟨h5, e5, e2⟩ := Outcome.bind_eq_ok.mp e2
  obtain ⟨h6, e6, e2⟩ := Outcome.bind_eq_ok.mp e2
  simp only [Outcome.pure_eq_ok, Outcome.ok.injEq, Prod.mk.injEq] at e e2
  obtain ⟨⟨rfl, rfl⟩, rfl⟩ := e
  obtain ⟨rfl, rfl⟩ := e2
  rw [e1, Outcome.ok_bind, e4, Outcome.ok_bind, e5, Outcome.ok_bind, e6]
  rfl

/-- **C123 does not hold for the last nodes of other lists.** In every reachable state, removing the last node of another list that has two
or more calls no panic handler. Iterating forwards finds the nodes of this list as before, but its last element is then one of
the other list. Any free node that is added at the end of this list becomes an element of the other one, and not of
this one unless it was empty; no panic handler is called for that either. -/
theorem C123_last_of_other_violated {ι : Type} [DecidableEq ι] {c : Cfg} {h : Heap} (hf : Fresh c h) {ops : List (ι × Op)}
    {ls : ι → List Nat} {rs : List Out} (hs : SpecRun c h.length (fun _ => []) ops ls rs) {i j : ι} (hij : i ≠ j) {n : Nat} {A : List Nat}
    (hj : ls j = A ++ [n]) (hA : A ≠ []) :
    ∃ w w', runW c (start ι h) ops = .ok (w, rs, 0) ∧ stepW c w i (.remove n) = .ok (w', .unit, 0) ∧
      walk w'.heap h.length (w'.lists i).head = .ok (ls i) ∧
      walkBack w'.heap h.length (w'.lists i).tail = .ok A.reverse ∧
      ∀ y, y < h.length → (∀ m, y ∉ ls m) → ∃ w'', stepW c w' i (.pushBack y) = .ok (w'', .unit, 0) ∧
        walk w''.heap h.length (w''.lists j).head = .ok (A ++ [y]) ∧
        (ls i ≠ [] → walk w''.heap h.length (w''.lists i).head = .ok (ls i)) := by
  obtain ⟨w, e, hw, hlen⟩ := runW_ok hs (start_ok (ι := ι) hf) rfl
  have hlen : w.heap.length = h.length := hlen
  obtain ⟨h', hw', hl', e'⟩ := remove_through hw (B := []) hj i
  simp only [List.append_nil] at hw'
  have k := hw'.wf j
  simp only [if_true] at k
  have ki := hw'.wf i
  simp only [hij, if_false] at ki
  have kil := wf_len ki
  have kl := wf_len k
  simp only [hA, if_false, if_true] at e'
  refine ⟨w, _, e, e', ?_, ?_, fun y hy hfree => ?_⟩
  · simp only [if_true]
    rw [ki.head]
    exact walk_ok (ls i) ki.links (by omega)
  · simp only [if_true]
    rw [← List.head?_reverse]
    exact walkBack_ok A.reverse (by simpa using k.links) (by simp; omega)
  · have hspec : specStep (if j = j then A else ls j) (.pushBack y) = some (A ++ [y], .unit) := by simp [specStep]
    have hyA : y ∉ A := fun hy' => hfree j (by rw [hj]; simp [hy'])
    obtain ⟨w2, e2, hlen2, hw2, _⟩ := stepW_ok hw' (i := j) hspec
      ⟨by
        intro a ha
        simp only [Op.added, Option.some.injEq] at ha
        subst ha
        refine ⟨by simp only [hl']; omega, fun m => ?_⟩
        by_cases hm : m = j
        · simpa [hm] using hyA
        · simpa [hm] using hfree m, by simp⟩
    unfold stepW at e2
    obtain ⟨⟨⟨h3, l3⟩, r3, p3⟩, e3, e4⟩ := Outcome.bind_eq_ok.mp e2
    simp only [step] at e3
    obtain ⟨⟨⟨h5, l5⟩, p5⟩, e5, e6⟩ := Outcome.bind_eq_ok.mp e3
    simp only [Outcome.pure_eq_ok, Outcome.ok.injEq, Prod.mk.injEq] at e4 e6
    obtain ⟨⟨rfl, rfl⟩, rfl, rfl⟩ := e6
    obtain ⟨rfl, -, hp⟩ := e4
    subst hp
    simp only [if_true] at e5
    have e7 := pushBack_tail (k := ⟨(w.lists i).head, A.getLast?⟩) e5 rfl
    refine ⟨_, by simp only [stepW, step, if_true, e7, Outcome.ok_bind, Outcome.pure_eq_ok]; rfl, ?_, fun hne => ?_⟩
    · simp only [hij.symm, if_false]
      have q := hw2.wf j
      simp only [if_true] at q
      have ql := wf_len q
      have hlen2 : h5.length = h'.length := hlen2
      have : (w.lists j).head = (A ++ [y]).head? := by
        rw [(hw.wf j).head, hj]
        cases A with
        | nil => exact absurd rfl hA
        | cons a A => rfl
      rw [this]
      exact walk_ok (A ++ [y]) q.links (by omega)
    · simp only [if_true]
      have q := hw2.wf i
      simp only [hij, if_false] at q
      have ql := wf_len q
      have hlen2 : h5.length = h'.length := hlen2
      have hh : (w.lists i).head ≠ none := by
        rw [(hw.wf i).head]
        cases hli : ls i with
        | nil => exact absurd hli hne
        | cons a L => simp
      rw [if_neg hh, (hw.wf i).head]
      exact walk_ok (ls i) q.links (by omega)

/-! ## Cases that meet the hypotheses -/

/-- Two lists of three and two nodes, and a sixth node in neither. -/
theorem foreign_example (c : Cfg) : SpecRun c 6 (fun _ : Bool => [])
    [(true, .pushBack 0), (true, .pushBack 1), (true, .pushBack 2), (false, .pushBack 3), (false, .pushBack 4)]
    (fun b => if b then [0, 1, 2] else [3, 4]) [.unit, .unit, .unit, .unit, .unit] := by
  have e : (fun j : Bool => if j = false then [3, 4] else if j = false then [3] else if j = true then [0, 1, 2]
      else if j = true then [0, 1] else if j = true then [0] else []) = fun b => if b then [0, 1, 2] else [3, 4] := by
    funext b; cases b <;> rfl
  rw [← e]
  refine .cons rfl ⟨?_, by simp⟩ (.cons rfl ⟨?_, by simp⟩ (.cons rfl ⟨?_, by simp⟩ (.cons rfl ⟨?_, by simp⟩ (.cons rfl ⟨?_, by simp⟩ (.nil _)))))
  all_goals
    intro n hn
    simp only [Op.added, Option.some.injEq] at hn
    subst hn
    exact ⟨by decide, fun j => by cases j <;> simp⟩

example : ∀ j : Bool, 5 ∉ (fun b : Bool => if b then [0, 1, 2] else [3, 4]) j := by decide

example : (fun b : Bool => if b then [0, 1, 2] else [3, 4]) true = [0] ++ 1 :: [2] := rfl

/-- Removing the node in no list from the first list, node 1 through the second list, and node 3 through the first list. -/
example : ((runW ⟨.checked, .noreturn⟩ (start Bool (List.replicate 6 ⟨none, none⟩))
    [(true, .pushBack 0), (true, .pushBack 1), (true, .pushBack 2), (false, .pushBack 3), (false, .pushBack 4),
      (false, .remove 1), (true, .iterate), (true, .remove 3), (true, .iterate), (false, .iterate), (false, .remove 5), (false, .empty)])
      >>= fun r => .ok r.2.1.reverse) =
    .ok [.bool true, .unit, .nodes [3], .nodes [4], .unit, .nodes [0, 2], .unit, .unit, .unit, .unit, .unit, .unit] := by decide

example : (fun b : Bool => if b then [0, 1, 2] else [3, 4]) true = [0, 1] ++ [2] := rfl

/-- Removing node 2, the last of the first list, through the second: node 5, added to the second list, is in the first. -/
example : ((runW ⟨.checked, .noreturn⟩ (start Bool (List.replicate 6 ⟨none, none⟩))
    [(true, .pushBack 0), (true, .pushBack 1), (true, .pushBack 2), (false, .pushBack 3), (false, .pushBack 4),
      (false, .remove 2), (false, .pushBack 5), (true, .iterate), (false, .iterate)])
      >>= fun r => .ok r.2.1.reverse) =
    .ok [.nodes [3, 4], .nodes [0, 1, 5], .unit, .unit, .unit, .unit, .unit, .unit, .unit] := by decide

end Verif.IList
