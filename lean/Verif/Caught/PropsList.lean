import Verif.Caught.Props

/-!
# Panic handlers that throw, intrusive lists (C141)
-/

namespace Verif.Caught

open Verif.Unwind Verif.Judge

variable {E W ι : Type} [DecidableEq ι]

/-! ## intrusive_list -/

theorem need_threw {A R S : Type} {o : Outcome A} {k : A → Res E S R} {s : S} {e : E} (h : need o k = .threw s e) :
    ∃ a, o = .ok a ∧ k a = .threw s e := by
  cases o with
  | ok a => exact ⟨a, rfl, h⟩
  | ub => simp [need] at h
  | panic => simp [need] at h

theorem andThen_threw {A R S : Type} {r : Res E S A} {k : S → A → Res E S R} {s : S} {e : E} (h : r.andThen k = .threw s e) :
    r = .threw s e ∨ ∃ s1 a, r = .ok s1 a ∧ k s1 a = .threw s e := by
  cases r with
  | ok s1 a => exact .inr ⟨s1, a, rfl, h⟩
  | threw s1 e1 => simp [Res.andThen] at h; exact .inl (by rw [h.1, h.2])
  | ub => simp [Res.andThen] at h
  | terminated => simp [Res.andThen] at h

theorem panics_threw {B : Type} {H : Handler E W} {s s' : B × W} {e : E} (h : panics H s = .threw s' e) :
    s'.1 = s.1 ∧ H s.2 = (s'.2, .error e) := by
  unfold panics at h
  split at h
  · simp at h
  · rename_i hw
    simp only [Res.threw.injEq] at h
    obtain ⟨rfl, rfl⟩ := h
    exact ⟨rfl, hw⟩

theorem lCheck_threw {p : IList.Policy} {H : Handler E W} {n : Nat} {s s' : IList.World ι × W} {e : E}
    (h : lCheck p (panics H) n s = .threw s' e) : s'.1 = s.1 ∧ H s.2 = (s'.2, .error e) ∧ p = .checked := by
  cases p with
  | unchecked => simp [lCheck] at h
  | checked =>
    obtain ⟨v, _, h⟩ := need_threw h
    cases v
    · exact ⟨(panics_threw h).1, (panics_threw h).2, rfl⟩
    · simp at h

/-- **C141, one call on a list.** Whatever the state of nodes and lists and whatever the handler: if an exception leaves a call it is the
one the handler has thrown, the policy is the checked one, a node was to be added, and all nodes and lists are as they were before. -/
theorem C141_list_unchanged {p : IList.Policy} {H : Handler E W} {o : ι × IList.Op} {w w' : IList.World ι} {v v' : W} {e : E}
    (h : lStep p (panics H) o (w, v) = .threw (w', v') e) :
    w' = w ∧ H v = (v', .error e) ∧ p = .checked ∧ ∃ n, o.2.added = some n := by
  obtain ⟨i, o⟩ := o
  have add : ∀ {n : Nat} {k : IList.World ι × W → Unit → Res E (IList.World ι × W) Unit} {s' e},
      (∀ s u s' e, k s u ≠ .threw s' e) → (lCheck p (panics H) n (w, v)).andThen k = .threw s' e →
      s'.1 = w ∧ H v = (s'.2, .error e) ∧ p = .checked := by
    intro n k s' e hk hh
    rcases andThen_threw hh with h1 | ⟨s1, a, _, h2⟩
    · exact lCheck_threw h1
    · exact absurd h2 (hk _ _ _ _)
  have nt : ∀ {A : Type} {x : Outcome A} {s' e} {f : A → IList.World ι × W},
      need x (fun r => (.ok (f r) () : Res E (IList.World ι × W) Unit)) ≠ .threw s' e := by
    intro A x s' e f hh
    obtain ⟨a, _, h2⟩ := need_threw hh
    simp at h2
  have unw : ∀ {x : Res E (IList.World ι × W) Unit} {s' e}, (x.andThen fun s _ => .ok s IList.Out.unit) = .threw s' e → x = .threw s' e := by
    intro x s' e hh
    rcases andThen_threw hh with h1 | ⟨s1, a, _, h2⟩
    · exact h1
    · simp at h2
  cases o with
  | pushFront n =>
    obtain ⟨h1, h2, h3⟩ := add (fun _ _ _ _ => nt) (unw h)
    exact ⟨h1, h2, h3, n, rfl⟩
  | pushBack n =>
    obtain ⟨h1, h2, h3⟩ := add (fun _ _ _ _ => nt) (unw h)
    exact ⟨h1, h2, h3, n, rfl⟩
  | insert it n =>
    have h := unw h
    unfold lInsert at h
    split at h
    · obtain ⟨h1, h2, h3⟩ := add (fun _ _ _ _ => nt) h
      exact ⟨h1, h2, h3, n, rfl⟩
    · obtain ⟨h1, h2, h3⟩ := add (fun _ _ _ _ => nt) h
      exact ⟨h1, h2, h3, n, rfl⟩
  | empty => simp [lStep, IList.step, need] at h
  | _ =>
    obtain ⟨a, _, h2⟩ := need_threw h
    simp at h2

/-- A call that does not panic does not depend on the handler. -/
theorem lStep_ok {p : IList.Policy} {P : Raise E (IList.World ι × W)} {i : ι} {o : IList.Op} {w w' : IList.World ι} {v : W} {r : IList.Out} {k : Nat}
    (h : IList.stepW ⟨p, .noreturn⟩ w i o = .ok (w', r, k)) : lStep p P (i, o) (w, v) = .ok (w', v) r := by
  unfold IList.stepW at h
  obtain ⟨⟨⟨hp, l⟩, r1, p1⟩, e1, e2⟩ := Outcome.bind_eq_ok.mp h
  simp only [Outcome.pure_eq_ok, Outcome.ok.injEq, Prod.mk.injEq] at e2
  obtain ⟨rfl, rfl, rfl⟩ := e2
  have chk : ∀ {n : Nat} {m : Nat}, IList.check ⟨p, .noreturn⟩ w.heap n = .ok m → lCheck p P n (w, v) = .ok (w, v) () := by
    intro n m hc
    cases p with
    | unchecked => rfl
    | checked =>
      simp only [IList.check] at hc
      obtain ⟨b, hb, hc⟩ := Outcome.bind_eq_ok.mp hc
      cases b
      · simp at hc
      · simp [lCheck, hb, need]
  cases o with
  | pushFront n =>
    simp only [IList.step, IList.pushFront] at e1
    obtain ⟨x, hx, e1⟩ := Outcome.bind_eq_ok.mp e1
    obtain ⟨m, hm, hx⟩ := Outcome.bind_eq_ok.mp hx
    obtain ⟨y, hy, hx⟩ := Outcome.bind_eq_ok.mp hx
    simp only [Outcome.pure_eq_ok, Outcome.ok.injEq] at hx e1
    subst hx
    obtain ⟨rfl, rfl, rfl⟩ := by simpa using e1
    simp [lStep, lPushFront, chk hm, Res.andThen, need, hy, lSet]
  | pushBack n =>
    simp only [IList.step, IList.pushBack] at e1
    obtain ⟨x, hx, e1⟩ := Outcome.bind_eq_ok.mp e1
    obtain ⟨m, hm, hx⟩ := Outcome.bind_eq_ok.mp hx
    obtain ⟨y, hy, hx⟩ := Outcome.bind_eq_ok.mp hx
    simp only [Outcome.pure_eq_ok, Outcome.ok.injEq] at hx e1
    subst hx
    obtain ⟨rfl, rfl, rfl⟩ := by simpa using e1
    simp [lStep, lPushBack, chk hm, Res.andThen, need, hy, lSet]
  | insert it n =>
    simp only [IList.step, IList.insert] at e1
    obtain ⟨x, hx, e1⟩ := Outcome.bind_eq_ok.mp e1
    split at hx
    · rename_i hd
      simp only [IList.pushBack] at hx
      obtain ⟨m, hm, hx⟩ := Outcome.bind_eq_ok.mp hx
      obtain ⟨y, hy, hx⟩ := Outcome.bind_eq_ok.mp hx
      simp only [Outcome.pure_eq_ok, Outcome.ok.injEq] at hx e1
      subst hx
      obtain ⟨rfl, rfl, rfl⟩ := by simpa using e1
      simp [lStep, lInsert, hd, lPushBack, chk hm, Res.andThen, need, hy, lSet]
    · rename_i hd
      obtain ⟨m, hm, hx⟩ := Outcome.bind_eq_ok.mp hx
      obtain ⟨y, hy, hx⟩ := Outcome.bind_eq_ok.mp hx
      simp only [Outcome.pure_eq_ok, Outcome.ok.injEq] at hx e1
      subst hx
      obtain ⟨rfl, rfl, rfl⟩ := by simpa using e1
      simp [lStep, lInsert, hd, chk hm, Res.andThen, need, hy, lSet]
  | _ => simp only [lStep, e1, need, lSet]

/-- Adding a node with links hands the call to the handler. -/
theorem lStep_linked {H : Handler E W} {i : ι} {o : IList.Op} {w : IList.World ι} {v : W} {n : Nat} {nd : IList.Node} {e : E}
    (ha : o.added = some n) (hn : w.heap[n]? = some nd) (hl : ¬ (nd.prev = none ∧ nd.next = none)) (he : (H v).2 = .error e) :
    lStep .checked (panics H) (i, o) (w, v) = .threw (w, (H v).1) e := by
  have hv : IList.validForPush w.heap n = .ok false := by
    simp only [IList.validForPush, IList.rd_ok hn, Outcome.ok_bind, Outcome.pure_eq_ok]
    simpa using hl
  have hc : lCheck .checked (panics H) n (w, v) = .threw (w, (H v).1) e := by
    simp only [lCheck, hv, need, panics]
    rw [show H v = ((H v).1, .error e) from Prod.ext rfl he]
    rfl
  cases o <;> simp [IList.Op.added] at ha <;> subst ha
  · simp [lStep, lPushFront, hc, Res.andThen]
  · simp [lStep, lPushBack, hc, Res.andThen]
  · simp only [lStep, lInsert]
    split <;> simp [lPushBack, hc, Res.andThen]

theorem history_list {H : Handler E W} {size : Nat} {ls ls' : ι → List Nat} {ops : List (ι × IList.Op)} {rs : List (Option IList.Out)}
    (hs : ListCaught size ls ops ls' rs) : ∀ {w : IList.World ι} {v : W}, IList.WorldOk ⟨.checked, .noreturn⟩ w ls → w.heap.length = size →
      Throws H (thrown rs) v → ∃ w', history (lStep .checked (panics H)) ops (w, v) = .ok (w', after H (thrown rs) v) rs ∧
        IList.WorldOk ⟨.checked, .noreturn⟩ w' ls' := by
  induction hs with
  | nil ls => intro w v hw _ _; exact ⟨w, rfl, hw⟩
  | done h hn _ ih =>
    intro w v hw hl ht
    obtain ⟨w1, e1, hl1, hw1, _⟩ := IList.stepW_ok hw h ⟨by rw [hl]; exact hn, fun _ _ _ => rfl⟩
    obtain ⟨w', e, hw'⟩ := ih hw1 (hl1.trans hl) ht
    exact ⟨w', by simp [history, lStep_ok e1, e, Res.andThen, thrown], hw'⟩
  | @refused ls i o n j os ls' rs ha hm h2 _ ih =>
    intro w v hw hl ht
    obtain ⟨⟨x, hx⟩, ht⟩ := ht
    obtain ⟨nd, hnd, hlk⟩ := IList.member_linked (hw.wf j) h2 hm
    obtain ⟨w', e, hw'⟩ := ih hw hl ht
    exact ⟨w', by simp [history, lStep_linked ha hnd hlk hx, e, Res.andThen, thrown, after], hw'⟩

/-- **C141, histories of lists.** With the checked policy, in every history over any number of lists and nodes in which what is added is in
no list, or is a member of a list of at least two, with a handler that throws when it is called and a caller that catches, nothing is
undefined: the calls of the second kind, and no others, are left by an exception, with one call of the handler each; all others return
what the sequences say, as if the refused calls had not been made; and at the end each list is its sequence, in both directions. -/
theorem C141_list_history {H : Handler E W} {h : IList.Heap} (hf : ∀ nd ∈ h, nd = ⟨none, none⟩) {ls : ι → List Nat}
    {ops : List (ι × IList.Op)} {rs : List (Option IList.Out)} (hs : ListCaught h.length (fun _ => []) ops ls rs) {v : W}
    (ht : Throws H (thrown rs) v) :
    ∃ w, history (lStep .checked (panics H)) ops (IList.start ι h, v) = .ok (w, after H (thrown rs) v) rs ∧
      ∀ i, IList.walk w.heap w.heap.length (w.lists i).head = .ok (ls i) ∧
        IList.walkBack w.heap w.heap.length (w.lists i).tail = .ok (ls i).reverse := by
  obtain ⟨w, e, hw⟩ := history_list hs (IList.start_ok (ι := ι) fun _ => hf) rfl ht
  refine ⟨w, e, fun i => ?_⟩
  have wi := hw.wf i
  refine ⟨by rw [wi.head]; exact IList.walk_ok _ wi.links (IList.wf_len wi), ?_⟩
  rw [wi.tail, List.getLast?_eq_head?_reverse]
  exact IList.walkBack_ok (ls i).reverse (q := none) (by simpa using wi.links) (by simpa using IList.wf_len wi)

/-- Two lists; a member is pushed onto the other list and inserted at an iterator that is not in the list, and removed and pushed
after that. -/
example : ListCaught 3 (fun _ : Bool => []) [(true, .pushBack 0), (true, .pushBack 1), (false, .pushFront 0), (false, .insert (some 7) 1),
    (true, .remove 0), (false, .pushFront 0)] (fun b => if b then [1] else [0]) [some .unit, some .unit, none, none, some .unit, some .unit] := by
  refine .done rfl (by simp [IList.Op.added]) (.done rfl (by simp [IList.Op.added]) (.refused (j := true) rfl (by simp) (by simp)
    (.refused (j := true) rfl (by simp) (by simp) (.done rfl (by simp [IList.Op.added]) (.done rfl (by simp [IList.Op.added]) ?_)))))
  refine cast (congrArg (fun l => ListCaught 3 _ [] l []) ?_) (ListCaught.nil _)
  funext b; cases b <;> rfl

/-- The number the handler is left with, and the results. -/
def seen {B R : Type} : Res Nat (B × Nat) R → Option (Nat × R)
  | .ok s r => some (s.2, r)
  | _ => none

example : seen (history (lStep .checked (panics countdown)) [(true, .pushBack 0), (true, .pushBack 1), (false, .pushFront 0), (true, .iterate), (false, .empty)]
    (IList.start Bool (List.replicate 3 ⟨none, none⟩), 5)) =
      some (4, [some .unit, some .unit, none, some (.nodes [0, 1]), some (.bool true)]) := by decide

/-! ## intrusive_forward_list -/

theorem fCheck_threw {c : FList.Cfg} {H : Handler E W} {n : Nat} {s s' : FList.World ι × W} {e : E}
    (h : fCheck c (panics H) n s = .threw s' e) : s'.1 = s.1 ∧ H s.2 = (s'.2, .error e) ∧ c.policy = .checked := by
  unfold fCheck at h
  split at h
  · simp at h
  · rename_i hp
    obtain ⟨v, _, h⟩ := need_threw h
    cases v
    · exact ⟨(panics_threw h).1, (panics_threw h).2, hp⟩
    · simp at h

/-- **C141, one call on a forward list.** As `C141_list_unchanged`. -/
theorem C141_forward_list_unchanged {c : FList.Cfg} {H : Handler E W} {o : ι × FList.Op} {w w' : FList.World ι} {v v' : W} {e : E}
    (h : fStep c (panics H) o (w, v) = .threw (w', v') e) :
    w' = w ∧ H v = (v', .error e) ∧ c.policy = .checked ∧ ∃ n, o.2.added = some n := by
  obtain ⟨i, o⟩ := o
  have add : ∀ {n : Nat} {k : FList.World ι × W → Unit → Res E (FList.World ι × W) Unit} {s' e},
      (∀ s u s' e, k s u ≠ .threw s' e) → (fCheck c (panics H) n (w, v)).andThen k = .threw s' e →
      s'.1 = w ∧ H v = (s'.2, .error e) ∧ c.policy = .checked := by
    intro n k s' e hk hh
    rcases andThen_threw hh with h1 | ⟨s1, a, _, h2⟩
    · exact fCheck_threw h1
    · exact absurd h2 (hk _ _ _ _)
  have nt : ∀ {A : Type} {x : Outcome A} {s' e} {f : A → FList.World ι × W},
      need x (fun r => (.ok (f r) () : Res E (FList.World ι × W) Unit)) ≠ .threw s' e := by
    intro A x s' e f hh
    obtain ⟨a, _, h2⟩ := need_threw hh
    simp at h2
  have unw : ∀ {x : Res E (FList.World ι × W) Unit} {s' e}, (x.andThen fun s _ => .ok s FList.Out.unit) = .threw s' e → x = .threw s' e := by
    intro x s' e hh
    rcases andThen_threw hh with h1 | ⟨s1, a, _, h2⟩
    · exact h1
    · simp at h2
  cases o with
  | pushFront n =>
    obtain ⟨h1, h2, h3⟩ := add (fun _ _ _ _ => nt) (unw h)
    exact ⟨h1, h2, h3, n, rfl⟩
  | pushBack n =>
    obtain ⟨h1, h2, h3⟩ := add (fun _ _ _ _ => nt) (unw h)
    exact ⟨h1, h2, h3, n, rfl⟩
  | empty => simp [fStep, FList.step, need] at h
  | _ =>
    obtain ⟨a, _, h2⟩ := need_threw h
    simp at h2

theorem fStep_ok {c : FList.Cfg} (hc : c.handler = .noreturn) {P : Raise E (FList.World ι × W)} {i : ι} {o : FList.Op} {w w' : FList.World ι} {v : W}
    {r : FList.Out} {k : Nat} (h : FList.stepW c w i o = .ok (w', r, k)) : fStep c P (i, o) (w, v) = .ok (w', v) r := by
  unfold FList.stepW at h
  obtain ⟨⟨⟨hp, l⟩, r1, p1⟩, e1, e2⟩ := Outcome.bind_eq_ok.mp h
  simp only [Outcome.pure_eq_ok, Outcome.ok.injEq, Prod.mk.injEq] at e2
  obtain ⟨rfl, rfl, rfl⟩ := e2
  have chk : ∀ {n : Nat} {m : Nat}, FList.check c w.heap n = .ok m → fCheck c P n (w, v) = .ok (w, v) () := by
    intro n m h
    unfold FList.check at h
    unfold fCheck
    split
    · rfl
    · rename_i hp
      simp only [hp] at h
      obtain ⟨b, hb, h⟩ := Outcome.bind_eq_ok.mp h
      cases b
      · simp [hc] at h
      · simp [hb, need]
  cases o with
  | pushFront n =>
    simp only [FList.step, FList.pushFront] at e1
    obtain ⟨x, hx, e1⟩ := Outcome.bind_eq_ok.mp e1
    obtain ⟨m, hm, hx⟩ := Outcome.bind_eq_ok.mp hx
    obtain ⟨y, hy, hx⟩ := Outcome.bind_eq_ok.mp hx
    simp only [Outcome.pure_eq_ok, Outcome.ok.injEq] at hx e1
    subst hx
    obtain ⟨rfl, rfl, rfl⟩ := by simpa using e1
    simp [fStep, fPushFront, chk hm, Res.andThen, need, hy, fSet]
  | pushBack n =>
    simp only [FList.step, FList.pushBack] at e1
    obtain ⟨x, hx, e1⟩ := Outcome.bind_eq_ok.mp e1
    obtain ⟨m, hm, hx⟩ := Outcome.bind_eq_ok.mp hx
    obtain ⟨y, hy, hx⟩ := Outcome.bind_eq_ok.mp hx
    simp only [Outcome.pure_eq_ok, Outcome.ok.injEq] at hx e1
    subst hx
    obtain ⟨rfl, rfl, rfl⟩ := by simpa using e1
    simp [fStep, fPushBack, chk hm, Res.andThen, need, hy, fSet]
  | _ => simp only [fStep, e1, need, fSet]

theorem fStep_linked {c : FList.Cfg} (hp : c.policy = .checked) {H : Handler E W} {i : ι} {o : FList.Op} {w : FList.World ι} {v : W}
    {n : Nat} {nd : IList.Node} {e : E} (ha : o.added = some n) (hn : w.heap[n]? = some nd) (hl : nd.next ≠ none)
    (he : (H v).2 = .error e) : fStep c (panics H) (i, o) (w, v) = .threw (w, (H v).1) e := by
  have hv : FList.validForPush c w.heap n = .ok false := by
    simp only [FList.validForPush, IList.rd_ok hn, Outcome.ok_bind, Outcome.pure_eq_ok]
    cases c.hasPrev <;> simp [hl]
  have hc : fCheck c (panics H) n (w, v) = .threw (w, (H v).1) e := by
    simp only [fCheck, hp, hv, need, panics]
    rw [show H v = ((H v).1, .error e) from Prod.ext rfl he]
    rfl
  cases o <;> simp [FList.Op.added] at ha <;> subst ha
  · simp [fStep, fPushFront, hc, Res.andThen]
  · simp [fStep, fPushBack, hc, Res.andThen]

theorem history_forward {c : FList.Cfg} (hp : c.policy = .checked) (hc : c.handler = .noreturn) {H : Handler E W} {size : Nat}
    {ls ls' : ι → List Nat} {ops : List (ι × FList.Op)} {rs : List (Option FList.Out)}
    (hs : FwdCaught size ls ops ls' rs) : ∀ {w : FList.World ι} {v : W}, FList.WorldOk c w ls → w.heap.length = size →
      Throws H (thrown rs) v → ∃ w', history (fStep c (panics H)) ops (w, v) = .ok (w', after H (thrown rs) v) rs ∧ FList.WorldOk c w' ls' := by
  induction hs with
  | nil ls => intro w v hw _ _; exact ⟨w, rfl, hw⟩
  | done h hn _ ih =>
    intro w v hw hl ht
    obtain ⟨w1, e1, hl1, hw1, _⟩ := FList.stepW_ok hw h (by rw [hl]; exact hn)
    obtain ⟨w', e, hw'⟩ := ih hw1 (hl1.trans hl) ht
    exact ⟨w', by simp [history, fStep_ok hc e1, e, Res.andThen, thrown], hw'⟩
  | @refused ls i o n j os ls' rs ha hm _ ih =>
    intro w v hw hl ht
    obtain ⟨⟨x, hx⟩, ht⟩ := ht
    have hne : ls j ≠ [] := by rintro e; simp [e] at hm
    have hlk := (hw.wf j).links
    rw [← List.dropLast_concat_getLast hne] at hlk
    obtain ⟨A, B, hAB⟩ := List.append_of_mem hm
    rw [hAB, List.append_assoc, FList.links_append] at hlk
    obtain ⟨p0, hnd⟩ := hlk.2.1
    obtain ⟨w', e, hw'⟩ := ih hw hl ht
    exact ⟨w', by simp [history, fStep_linked (c := c) hp ha hnd (by cases B <;> simp) hx, e, Res.andThen, thrown, after], hw'⟩

/-- **C141, histories of forward lists.** As `C141_list_history`, where the members that are refused are those that are not the last of
their list. -/
theorem C141_forward_list_history {hasPrev : Bool} {H : Handler E W} {h : IList.Heap}
    (hf : ∀ nd ∈ h, nd.next = none ∧ (hasPrev = true → nd.prev = none)) {ls : ι → List Nat} {ops : List (ι × FList.Op)}
    {rs : List (Option FList.Out)} (hs : FwdCaught h.length (fun _ => []) ops ls rs) {v : W} (ht : Throws H (thrown rs) v) :
    ∃ w, history (fStep ⟨.checked, .noreturn, hasPrev⟩ (panics H)) ops (FList.start ι h, v) = .ok (w, after H (thrown rs) v) rs ∧
      ∀ i, FList.walk w.heap w.heap.length (w.lists i).head = .ok (ls i) ∧ (w.lists i).tail = (ls i).getLast? := by
  obtain ⟨w, e, hw⟩ := history_forward (c := ⟨.checked, .noreturn, hasPrev⟩) rfl rfl hs (FList.start_ok (ι := ι) fun _ => hf) rfl ht
  refine ⟨w, e, fun i => ?_⟩
  have wi := hw.wf i
  exact ⟨by rw [wi.head]; exact FList.walk_ok _ wi.links (FList.wf_len wi), wi.tail⟩

example : FwdCaught 3 (fun _ : Bool => []) [(true, .pushBack 0), (true, .pushBack 1), (false, .pushFront 0), (true, .iterate)]
    (fun b => if b then [0, 1] else []) [some .unit, some .unit, none, some (.nodes [0, 1])] := by
  refine .done rfl (by simp [FList.Op.added]) (.done rfl (by simp [FList.Op.added]) (.refused (j := true) rfl (by simp)
    (.done rfl (by simp [FList.Op.added]) ?_)))
  refine cast (congrArg (fun l => FwdCaught 3 _ [] l []) ?_) (FwdCaught.nil _)
  funext b; cases b <;> rfl

example : seen (history (fStep ⟨.checked, .noreturn, false⟩ (panics countdown)) [(true, .pushBack 0), (true, .pushBack 1), (false, .pushFront 0), (true, .iterate)]
    (FList.start Bool (List.replicate 3 ⟨none, none⟩), 5)) =
      some (4, [some .unit, some .unit, none, some (.nodes [0, 1])]) := by decide

end Verif.Caught
