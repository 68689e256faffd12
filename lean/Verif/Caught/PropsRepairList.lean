import Verif.Caught.PropsRepair

/-!
# Panic handlers that repair, intrusive lists (C142)
-/

namespace Verif.Caught

open Verif.Unwind Verif.Judge

variable {E W ι : Type} [DecidableEq ι]

/-! ## intrusive_list -/

theorem lCheck_free {P : Raise E (IList.World ι × W)} {n : Nat} {w : IList.World ι} {v : W} (h : w.heap[n]? = some ⟨none, none⟩) :
    lCheck .checked P n (w, v) = .ok (w, v) () := by
  simp [lCheck, IList.validForPush, IList.rd_ok h, need]

theorem lCheck_linked {P : Raise E (IList.World ι × W)} {n : Nat} {w : IList.World ι} {v : W} {nd : IList.Node}
    (hn : w.heap[n]? = some nd) (hl : ¬ (nd.prev = none ∧ nd.next = none)) : lCheck .checked P n (w, v) = P (w, v) := by
  have hv : IList.validForPush w.heap n = .ok false := by
    simp only [IList.validForPush, IList.rd_ok hn, Outcome.ok_bind, Outcome.pure_eq_ok]
    simpa using hl
  simp [lCheck, hv, need]

/-- **C142, one call on a list.** Whatever the nodes and lists and whatever the handler: if a node with links is added, the handler returns
and the node has none where the handler leaves it, then the call is as if it had been made there, provided that, for `insert`, the list
is empty afterwards if and only if it was before. -/
theorem C142_list_continues {P : Raise E (IList.World ι × W)} {i : ι} {o : IList.Op} {n : Nat} {w w1 : IList.World ι} {v v1 : W}
    {nd : IList.Node} (ha : o.added = some n) (hn : w.heap[n]? = some nd) (hl : ¬ (nd.prev = none ∧ nd.next = none))
    (hp : P (w, v) = .ok (w1, v1) ()) (hf : w1.heap[n]? = some ⟨none, none⟩)
    (hi : ∀ it, o = .insert it n → ((w.lists i).head = none ↔ (w1.lists i).head = none)) :
    lStep .checked P (i, o) (w, v) = lStep .checked P (i, o) (w1, v1) := by
  cases o <;> simp [IList.Op.added] at ha <;> subst ha
  · simp [lStep, lPushFront, lCheck_linked hn hl, lCheck_free hf, hp, Res.andThen]
  · simp [lStep, lPushBack, lCheck_linked hn hl, lCheck_free hf, hp, Res.andThen]
  · have hi := hi _ rfl
    by_cases h1 : (w.lists i).head = none
    · simp [lStep, lInsert, lPushBack, h1, hi.mp h1, lCheck_linked hn hl, lCheck_free hf, hp, Res.andThen]
    · simp [lStep, lInsert, h1, mt hi.mpr h1, lCheck_linked hn hl, lCheck_free hf, hp, Res.andThen]

/-- `insert` at the end, whether the handler has emptied or filled the list, appends to the list that the handler leaves. -/
theorem insert_end_continues {P : Raise E (IList.World ι × W)} {i : ι} {n : Nat} {w w1 : IList.World ι} {v v1 : W}
    {nd : IList.Node} (hn : w.heap[n]? = some nd) (hl : ¬ (nd.prev = none ∧ nd.next = none))
    (hp : P (w, v) = .ok (w1, v1) ()) (hf : w1.heap[n]? = some ⟨none, none⟩)
    (ht : (w1.lists i).head = none → (w1.lists i).tail = none)
    (hne : ¬ ((w.lists i).head = none ↔ (w1.lists i).head = none)) :
    lStep .checked P (i, .insert none n) (w, v) = lStep .checked P (i, .pushBack n) (w1, v1) := by
  by_cases h1 : (w.lists i).head = none
  · simp [lStep, lInsert, lPushBack, h1, lCheck_linked hn hl, lCheck_free hf, hp, Res.andThen]
  · have h2 : (w1.lists i).head = none :=
      Classical.byContradiction fun h2 => hne ⟨fun h => absurd h h1, fun h => absurd h h2⟩
    have e : IList.uncheckedInsert w1.heap (w1.lists i) none n = IList.uncheckedPushBack w1.heap (w1.lists i) n := by
      obtain ⟨hlt, hg⟩ := List.getElem?_eq_some_iff.mp hf
      have hs : w1.heap.set n ⟨none, none⟩ = w1.heap := by rw [← hg]; exact List.set_getElem_self hlt
      simp [IList.uncheckedInsert, IList.uncheckedPushBack, ht h2, h2, IList.setPrev, IList.setNext, arrGet, arrSet, hg, hlt, hs, IList.rd]
    simp [lStep, lInsert, lPushBack, h1, lCheck_linked hn hl, lCheck_free hf, hp, Res.andThen, e]

theorem history_list_repaired {size : Nat} {prog : W → List (ι × IList.Op) × W} {ls ls' : ι → List Nat} {v v' : W}
    {ops : List (ι × IList.Op)} {rs : List IList.Out} (hs : ListRepaired size prog ls v ops ls' v' rs) :
    ∀ {w : IList.World ι}, IList.WorldOk ⟨.checked, .noreturn⟩ w ls → w.heap.length = size →
      ∃ w', history (lStep (E := E) .checked (lRepairs prog)) ops (w, v) = .ok (w', v') (rs.map some) ∧
        IList.WorldOk ⟨.checked, .noreturn⟩ w' ls' := by
  induction hs with
  | nil ls v => intro w hw _; exact ⟨w, rfl, hw⟩
  | done h hn _ ih =>
    intro w hw hl
    obtain ⟨w1, e1, hl1, hw1, _⟩ := IList.stepW_ok hw h ⟨by rw [hl]; exact hn, fun _ _ _ => rfl⟩
    obtain ⟨w', e, hw'⟩ := ih hw1 (hl1.trans hl)
    exact ⟨w', by simp [history, lStep_ok e1, e, Res.andThen], hw'⟩
  | @repaired ls v i o n j ls1 rs1 l' r os ls' v' rs ha hm h2 hp hf hi h _ ih =>
    intro w hw hl
    obtain ⟨nd, hnd, hlk⟩ := IList.member_linked (hw.wf j) h2 hm
    have hlt : n < size := by
      rw [← hl]; exact (List.getElem?_eq_some_iff.mp hnd).1
    obtain ⟨w1, e1, hw1, hl1⟩ := IList.runW_ok hp hw hl
    have hfree := hw1.free rfl n (by rw [hl1]; exact hlt) hf
    have hadd : ∀ m, o.added = some m → m < w1.heap.length ∧ ∀ j, m ∉ ls1 j := by
      intro m hm'; rw [ha] at hm'; cases hm'; exact ⟨by rw [hl1]; exact hlt, hf⟩
    have hP : lRepairs (E := E) prog (w, v) = .ok (w1, (prog v).2) () := by simp [lRepairs, e1, need]
    have hd : ∀ {w : IList.World ι} {ls}, IList.WorldOk ⟨.checked, .noreturn⟩ w ls → ((w.lists i).head = none ↔ ls i = []) := by
      intro w ls hw; rw [(hw.wf i).head]; simp
    by_cases hiff : ∀ it, o = .insert it n → ((w.lists i).head = none ↔ (w1.lists i).head = none)
    · obtain ⟨w2, e2, hl2, hw2, _⟩ := IList.stepW_ok hw1 h ⟨hadd, fun _ _ _ => rfl⟩
      obtain ⟨w', e, hw'⟩ := ih hw2 (hl2.trans hl1)
      refine ⟨w', ?_, hw'⟩
      rw [history, C142_list_continues ha hnd hlk hP hfree hiff, lStep_ok e2]
      simp [e, Res.andThen]
    · have hiff : ∃ it, o = .insert it n ∧ ¬ ((w.lists i).head = none ↔ (w1.lists i).head = none) :=
        Classical.byContradiction fun hc => hiff fun it hit => Classical.byContradiction fun hn => hc ⟨it, hit, hn⟩
      obtain ⟨it, rfl, hne⟩ := hiff
      cases it with
      | some x =>
        have hx := hi x rfl
        simp only [IList.specStep] at h
        split at h
        · rename_i hx1
          refine absurd ?_ hne
          rw [hd hw, hd hw1]
          constructor
          · intro h0; rw [h0] at hx; simp at hx
          · intro h0; rw [h0] at hx1; simp at hx1
        · simp at h
      | none =>
        have h' : IList.specStep (ls1 i) (.pushBack n) = some (l', r) := h
        obtain ⟨w2, e2, hl2, hw2, _⟩ := IList.stepW_ok hw1 h' ⟨hadd, fun _ hc _ => by simp at hc⟩
        obtain ⟨w', e, hw'⟩ := ih hw2 (hl2.trans hl1)
        refine ⟨w', ?_, hw'⟩
        rw [history, insert_end_continues hnd hlk hP hfree (fun h0 => by
          rw [(hw1.wf i).tail, (hd hw1).mp h0]; rfl) hne, lStep_ok e2]
        simp [e, Res.andThen]

/-- **C142, histories of lists.** With the checked policy, for every handler that makes calls on the lists and every history in which what
is added is in no list, or is a member of a list of at least two and in no list after the calls of the handler, and iterators are valid
before and after those, nothing is undefined: the results are those of the sequences on which the handler's calls have been made in those
places, and at the end each list is its sequence, in both directions. -/
theorem C142_list_history {prog : W → List (ι × IList.Op) × W} {h : IList.Heap} (hf : ∀ nd ∈ h, nd = ⟨none, none⟩) {ls : ι → List Nat}
    {v v' : W} {ops : List (ι × IList.Op)} {rs : List IList.Out} (hs : ListRepaired h.length prog (fun _ => []) v ops ls v' rs) :
    ∃ w, history (lStep (E := E) .checked (lRepairs prog)) ops (IList.start ι h, v) = .ok (w, v') (rs.map some) ∧
      ∀ i, IList.walk w.heap w.heap.length (w.lists i).head = .ok (ls i) ∧
        IList.walkBack w.heap w.heap.length (w.lists i).tail = .ok (ls i).reverse := by
  obtain ⟨w, e, hw⟩ := history_list_repaired (E := E) hs (IList.start_ok (ι := ι) fun _ => hf) rfl
  refine ⟨w, e, fun i => ?_⟩
  have wi := hw.wf i
  refine ⟨by rw [wi.head]; exact IList.walk_ok _ wi.links (IList.wf_len wi), ?_⟩
  rw [wi.tail, List.getLast?_eq_head?_reverse]
  exact IList.walkBack_ok (ls i).reverse (q := none) (by simpa using wi.links) (by simpa using IList.wf_len wi)

/-- The handler empties the list in which the iterator is: what is true of an empty list, where `insert` does not look at the iterator, is
not true here.  The list is left with a first node and without a last, and `back` is undefined. -/
theorem C142_insert_emptied_fails {prog : W → List (ι × IList.Op) × W} {h : IList.Heap} (hf : ∀ nd ∈ h, nd = ⟨none, none⟩)
    {ls : ι → List Nat} {v v' : W} {ops : List (ι × IList.Op)} {rs : List IList.Out}
    (hs : ListRepaired h.length prog (fun _ => []) v ops ls v' rs) {i : ι} {x n : Nat} (hx : x ∈ ls i) (hn : n ∈ ls i) (hxn : x ≠ n)
    (hp : (prog v').1 = [(i, .clear)]) :
    ∃ w, history (lStep (E := E) .checked (lRepairs prog)) ops (IList.start ι h, v) = .ok (w, v') (rs.map some) ∧
      (∃ w', history (lStep (E := E) .checked (lRepairs prog)) [(i, .insert (some x) n), (i, .empty)] (w, v') =
        .ok (w', (prog v').2) [some .unit, some (.bool false)]) ∧
      history (lStep (E := E) .checked (lRepairs prog)) [(i, .insert (some x) n), (i, .back)] (w, v') = .ub := by
  obtain ⟨w, e, hw⟩ := history_list_repaired (E := E) hs (IList.start_ok (ι := ι) fun _ => hf) rfl
  refine ⟨w, e, ?_⟩
  have h2 : 2 ≤ (ls i).length := by
    obtain ⟨A, B, hAB⟩ := List.append_of_mem hx
    rw [hAB] at hn ⊢
    have : A ≠ [] ∨ B ≠ [] := by
      by_cases hA : A = []
      · refine .inr ?_
        rintro rfl
        simp [hA] at hn
        exact hxn hn.symm
      · exact .inl hA
    rcases this with h | h <;> have := List.length_pos_iff.mpr h <;> simp <;> omega
  obtain ⟨nd, hnd, hlk⟩ := IList.member_linked (hw.wf i) h2 hn
  obtain ⟨w1, e1, hl1, hw1, _⟩ := IList.stepW_ok hw (i := i) (o := .clear) rfl ⟨by simp [IList.Op.added], by simp⟩
  have hd : (w.lists i).head ≠ none := by
    rw [(hw.wf i).head]
    intro h0
    rw [List.head?_eq_none_iff.mp h0] at hn
    simp at hn
  have out : ∀ a, a ∈ ls i → w1.heap[a]? = some ⟨none, none⟩ := by
    intro a ha
    refine hw1.free rfl a ?_ ?_
    · rw [hl1]; exact IList.links_lt _ (hw.wf i).links a ha
    · intro j
      by_cases hj : j = i
      · simp [hj]
      · simpa [hj] using hw.disj i j (Ne.symm hj) a ha
  have fn := out n hn
  have fx := out x hx
  have wi := hw1.wf i
  have hh := wi.head
  have ht := wi.tail
  simp at hh ht
  have hP : lRepairs (E := E) prog (w, v') = .ok (w1, (prog v').2) () := by simp [lRepairs, hp, IList.runW, e1, need]
  have ln := (List.getElem?_eq_some_iff.mp fn).1
  have lx := (List.getElem?_eq_some_iff.mp fx).1
  have hst : ∃ w2 : IList.World ι, lStep (E := E) .checked (lRepairs prog) (i, .insert (some x) n) (w, v') = .ok (w2, (prog v').2) .unit ∧
      w2.lists i = ⟨some n, none⟩ := by
    have e : ∃ h', IList.uncheckedInsert w1.heap (w1.lists i) (some x) n = .ok (h', ⟨some n, none⟩) := by
      have hx' : (w1.heap.set n ⟨none, some x⟩)[x]? = some ⟨none, none⟩ := by rw [List.getElem?_set_ne (Ne.symm hxn)]; exact fx
      have hx2 : ((w1.heap.set n ⟨none, some x⟩).set n ⟨none, some x⟩)[x]? = some ⟨none, none⟩ := by
        rw [List.getElem?_set_ne (Ne.symm hxn)]; exact hx'
      have hn1 : (w1.heap.set n ⟨none, some x⟩)[n]? = some ⟨none, some x⟩ := by simp [ln]
      have hn2 : (((w1.heap.set n ⟨none, some x⟩).set n ⟨none, some x⟩).set x ⟨some n, none⟩)[n]? = some ⟨none, some x⟩ := by
        rw [List.getElem?_set_ne hxn]; simp [ln]
      refine ⟨((w1.heap.set n ⟨none, some x⟩).set n ⟨none, some x⟩).set x ⟨some n, none⟩, ?_⟩
      simp [IList.uncheckedInsert, IList.setNext_ok fn, IList.rd_ok hx', IList.setPrev_ok hn1, IList.setPrev_ok hx2, IList.rd_ok hn2, ht,
        -List.set_set]
    obtain ⟨h', e⟩ := e
    refine ⟨(lSet i (w1, (prog v').2) (h', ⟨some n, none⟩)).1, ?_, by simp [lSet]⟩
    simp [lStep, lInsert, hd, lCheck_linked hnd hlk, hP, Res.andThen, e, need, lSet]
  obtain ⟨w2, e2, hl2⟩ := hst
  have he : lStep (E := E) .checked (lRepairs prog) (i, .empty) (w2, (prog v').2) =
      .ok (lSet i (w2, (prog v').2) (w2.heap, w2.lists i)) (.bool false) := by simp [lStep, IList.step, hl2, need]
  have hb : lStep (E := E) .checked (lRepairs prog) (i, .back) (w2, (prog v').2) = .ub := by
    simp only [lStep, IList.step, hl2, IList.refTo]
    rfl
  exact ⟨⟨(lSet i (w2, (prog v').2) (w2.heap, w2.lists i)).1, by simp only [history, e2, Res.andThen, he]; rfl⟩,
    by simp only [history, e2, Res.andThen, hb]⟩

/-- The two calls of `C142_insert_emptied_fails` on a list of three. -/
example : ListRepaired 3 (fun k : Nat => ([(true, .clear)], k + 1)) (fun _ : Bool => []) 0 [(true, .pushBack 0), (true, .pushBack 1),
    (true, .pushBack 2)] (fun b => if b then [0, 1, 2] else []) 0 [.unit, .unit, .unit] := by
  refine .done rfl (by simp [IList.Op.added]) (.done rfl (by simp [IList.Op.added]) (.done rfl (by simp [IList.Op.added]) ?_))
  refine cast (congrArg (fun l => ListRepaired 3 _ _ _ [] l _ []) ?_) (ListRepaired.nil _ _)
  funext b; cases b <;> rfl

/-- A handler that empties the first list when it is called first, and the second after that. -/
def emptyBoth : Nat → List (Bool × IList.Op) × Nat
  | 0 => ([(true, .clear)], 1)
  | k + 1 => ([(false, .clear)], k + 2)

/-- Two lists; a member is pushed onto the other list; then one is inserted at the end of its own. -/
example : ListRepaired 3 emptyBoth (fun _ : Bool => []) 0 [(true, .pushBack 0), (true, .pushBack 1), (false, .pushFront 0),
    (false, .pushBack 2), (false, .insert none 2)] (fun b => if b then [] else [2]) 2 [.unit, .unit, .unit, .unit, .unit] := by
  refine .done rfl (by simp [IList.Op.added]) (.done rfl (by simp [IList.Op.added]) (.repaired (j := true) (rs1 := [.unit]) rfl (by simp)
    (by simp) (.cons rfl (by simp [IList.NodeOk, IList.Op.added]) (.nil _)) (by simp) (by simp) rfl (.done rfl (by simp [IList.Op.added])
    (.repaired (j := false) (rs1 := [.unit]) rfl (by simp) (by simp) (.cons rfl (by simp [IList.NodeOk, IList.Op.added]) (.nil _))
    (by simp) (by simp) rfl ?_))))
  refine cast (congrArg (fun l => ListRepaired 3 _ _ _ [] l _ []) ?_) (ListRepaired.nil _ _)
  funext b; cases b <;> rfl

example : seen (history (lStep .checked (lRepairs emptyBoth)) [(true, .pushBack 0), (true, .pushBack 1), (false, .pushFront 0),
    (true, .iterate), (false, .iterate)] (IList.start Bool (List.replicate 3 ⟨none, none⟩), 0)) =
      some (1, [some .unit, some .unit, some .unit, some (.nodes []), some (.nodes [0])]) := by decide

/-! ## intrusive_forward_list -/

theorem fCheck_free {hasPrev : Bool} {P : Raise E (FList.World ι × W)} {n : Nat} {w : FList.World ι} {v : W}
    (h : FList.Null ⟨.checked, .noreturn, hasPrev⟩ w.heap n) : fCheck ⟨.checked, .noreturn, hasPrev⟩ P n (w, v) = .ok (w, v) () := by
  obtain ⟨p, e, hp⟩ := h
  cases hasPrev with
  | false => simp [fCheck, FList.validForPush, IList.rd_ok e, need]
  | true => simp [fCheck, FList.validForPush, IList.rd_ok e, need, hp rfl]

theorem fCheck_linked {hasPrev : Bool} {P : Raise E (FList.World ι × W)} {n : Nat} {w : FList.World ι} {v : W} {nd : IList.Node}
    (hn : w.heap[n]? = some nd) (hl : nd.next ≠ none) : fCheck ⟨.checked, .noreturn, hasPrev⟩ P n (w, v) = P (w, v) := by
  have hv : FList.validForPush ⟨.checked, .noreturn, hasPrev⟩ w.heap n = .ok false := by
    simp only [FList.validForPush, IList.rd_ok hn, Outcome.ok_bind, Outcome.pure_eq_ok]
    cases hasPrev <;> simp [hl]
  simp [fCheck, hv, need]

/-- **C142, one call on a forward list.** As `C142_list_continues`. -/
theorem C142_forward_list_continues {hasPrev : Bool} {P : Raise E (FList.World ι × W)} {i : ι} {o : FList.Op} {n : Nat}
    {w w1 : FList.World ι} {v v1 : W} {nd : IList.Node} {p : IList.Ptr} (ha : o.added = some n) (hn : w.heap[n]? = some nd)
    (hl : nd.next ≠ none) (hp : P (w, v) = .ok (w1, v1) ()) (hf : w1.heap[n]? = some ⟨p, none⟩) (hf' : hasPrev = true → p = none) :
    fStep ⟨.checked, .noreturn, hasPrev⟩ P (i, o) (w, v) = fStep ⟨.checked, .noreturn, hasPrev⟩ P (i, o) (w1, v1) := by
  cases o <;> simp [FList.Op.added] at ha <;> subst ha
  · simp [fStep, fPushFront, fCheck_linked hn hl, fCheck_free ⟨p, hf, hf'⟩, hp, Res.andThen]
  · simp [fStep, fPushBack, fCheck_linked hn hl, fCheck_free ⟨p, hf, hf'⟩, hp, Res.andThen]

theorem history_forward_repaired {hasPrev : Bool} {size : Nat} {prog : W → List (ι × FList.Op) × W} {ls ls' : ι → List Nat} {v v' : W}
    {ops : List (ι × FList.Op)} {rs : List FList.Out} (hs : FwdRepaired size prog ls v ops ls' v' rs) :
    ∀ {w : FList.World ι}, FList.WorldOk ⟨.checked, .noreturn, hasPrev⟩ w ls → w.heap.length = size →
      ∃ w', history (fStep (E := E) ⟨.checked, .noreturn, hasPrev⟩ (fRepairs hasPrev prog)) ops (w, v) = .ok (w', v') (rs.map some) ∧
        FList.WorldOk ⟨.checked, .noreturn, hasPrev⟩ w' ls' := by
  induction hs with
  | nil ls v => intro w hw _; exact ⟨w, rfl, hw⟩
  | done h hn _ ih =>
    intro w hw hl
    obtain ⟨w1, e1, hl1, hw1, _⟩ := FList.stepW_ok hw h (by rw [hl]; exact hn)
    obtain ⟨w', e, hw'⟩ := ih hw1 (hl1.trans hl)
    exact ⟨w', by simp [history, fStep_ok rfl e1, e, Res.andThen], hw'⟩
  | @repaired ls v i o n j ls1 rs1 l' r os ls' v' rs ha hm hp hf h _ ih =>
    intro w hw hl
    have hne : ls j ≠ [] := by rintro e; simp [e] at hm
    have hlk := (hw.wf j).links
    rw [← List.dropLast_concat_getLast hne] at hlk
    obtain ⟨A, B, hAB⟩ := List.append_of_mem hm
    rw [hAB, List.append_assoc, FList.links_append] at hlk
    obtain ⟨p0, hnd⟩ := hlk.2.1
    have hlt : n < size := by rw [← hl]; exact (List.getElem?_eq_some_iff.mp hnd).1
    obtain ⟨w1, e1, hw1, hl1⟩ := FList.runW_ok hp hw hl
    obtain ⟨p, hfree, hfp⟩ := hw1.free rfl n (by rw [hl1]; exact hlt) hf
    have hP : fRepairs (E := E) hasPrev prog (w, v) = .ok (w1, (prog v).2) () := by simp [fRepairs, e1, need]
    obtain ⟨w2, e2, hl2, hw2, _⟩ := FList.stepW_ok hw1 h (by
      intro m hm'; rw [ha] at hm'; cases hm'; exact ⟨by rw [hl1]; exact hlt, hf⟩)
    obtain ⟨w', e, hw'⟩ := ih hw2 (hl2.trans hl1)
    refine ⟨w', ?_, hw'⟩
    rw [history, C142_forward_list_continues ha hnd (by cases B <;> simp) hP hfree hfp, fStep_ok rfl e2]
    simp [e, Res.andThen]

/-- **C142, histories of forward lists.** As `C142_list_history`, where the members that are found are those that are not the last of their
list. -/
theorem C142_forward_list_history {hasPrev : Bool} {prog : W → List (ι × FList.Op) × W} {h : IList.Heap}
    (hf : ∀ nd ∈ h, nd.next = none ∧ (hasPrev = true → nd.prev = none)) {ls : ι → List Nat} {v v' : W} {ops : List (ι × FList.Op)}
    {rs : List FList.Out} (hs : FwdRepaired h.length prog (fun _ => []) v ops ls v' rs) :
    ∃ w, history (fStep (E := E) ⟨.checked, .noreturn, hasPrev⟩ (fRepairs hasPrev prog)) ops (FList.start ι h, v) = .ok (w, v') (rs.map some) ∧
      ∀ i, FList.walk w.heap w.heap.length (w.lists i).head = .ok (ls i) ∧ (w.lists i).tail = (ls i).getLast? := by
  obtain ⟨w, e, hw⟩ := history_forward_repaired (E := E) hs (FList.start_ok (ι := ι) fun _ => hf) rfl
  refine ⟨w, e, fun i => ?_⟩
  have wi := hw.wf i
  exact ⟨by rw [wi.head]; exact FList.walk_ok _ wi.links (FList.wf_len wi), wi.tail⟩

example : FwdRepaired 3 (fun k : Nat => ([(true, .popFront)], k + 1)) (fun _ : Bool => []) 0 [(true, .pushBack 0), (true, .pushBack 1),
    (true, .pushBack 0), (true, .iterate)] (fun b => if b then [1, 0] else []) 1 [.unit, .unit, .unit, .nodes [1, 0]] := by
  refine .done rfl (by simp [FList.Op.added]) (.done rfl (by simp [FList.Op.added]) (.repaired (j := true) (rs1 := [.node (some 0)]) rfl
    (by simp) (.cons rfl (by simp [FList.NodeOk, FList.Op.added]) (.nil _)) (by intro j; cases j <;> simp) rfl
    (.done rfl (by simp [FList.Op.added]) ?_)))
  refine cast (congrArg (fun l => FwdRepaired 3 _ _ _ [] l _ []) ?_) (FwdRepaired.nil _ _)
  funext b; cases b <;> rfl

example : seen (history (fStep ⟨.checked, .noreturn, false⟩ (fRepairs false fun k => ([(true, .popFront)], k + 1))) [(true, .pushBack 0),
    (true, .pushBack 1), (true, .pushBack 0), (true, .iterate)] (FList.start Bool (List.replicate 3 ⟨none, none⟩), 0)) =
      some (1, [some .unit, some .unit, some .unit, some (.nodes [1, 0])]) := by decide

end Verif.Caught
