import Verif.IList.Copy
import Verif.IList.Props

/-!
# Copies and moves of intrusive lists (C107)

The specification says which list objects may be used: after a copy exactly one of the two objects, chosen by the program, keeps the
nodes; the other one is not used again until it is itself made a copy of a list.
-/

namespace Verif.IList

/-- The sequence of a list object that may be used; nothing for one that may not. -/
def owned {ι : Type} (ls : ι → Option (List Nat)) (i : ι) : List Nat := (ls i).getD []

/-- The histories the property is about. `take`: `dst` continues with the nodes of `src` (a move, or a copy whose original is forgotten);
an empty `src` stays usable. `keep`: the copy is only there to be thrown away. A list object that holds nodes is not overwritten. -/
inductive SpecRunO {ι : Type} [DecidableEq ι] (c : Cfg) (size : Nat) :
    (ι → Option (List Nat)) → List (OOp ι) → (ι → Option (List Nat)) → List Out → Prop where
  | nil (ls) : SpecRunO c size ls [] ls []
  | on {ls i L o L' r os ls' rs} (hi : ls i = some L) (h : specStep L o = some (L', r)) (hn : NodeOk c size (owned ls) i o)
      (hr : SpecRunO c size (fun j => if j = i then some L' else ls j) os ls' rs) : SpecRunO c size ls (.on i o :: os) ls' (r :: rs)
  | take {ls dst src L os ls' rs} (hs : ls src = some L) (hd : owned ls dst = []) (hne : dst ≠ src)
      (hr : SpecRunO c size (fun j => if j = dst then some L else if j = src then (if L = [] then some [] else none) else ls j) os ls' rs) :
      SpecRunO c size ls (.copy dst src :: os) ls' (.unit :: rs)
  | keep {ls dst src os ls' rs} (hd : owned ls dst = []) (hne : dst ≠ src)
      (hr : SpecRunO c size (fun j => if j = dst then none else ls j) os ls' rs) :
      SpecRunO c size ls (.copy dst src :: os) ls' (.unit :: rs)
  | self {ls i os ls' rs} (hr : SpecRunO c size ls os ls' rs) : SpecRunO c size ls (.copy i i :: os) ls' (.unit :: rs)

/-- The world with the objects that may not be used replaced by empty lists. -/
def clean {ι : Type} (w : World ι) (ls : ι → Option (List Nat)) : World ι :=
  ⟨w.heap, fun i => if ls i = none then ⟨none, none⟩ else w.lists i⟩

theorem runO_ok {ι : Type} [DecidableEq ι] {c : Cfg} {size : Nat} {ls ls' : ι → Option (List Nat)} {ops : List (OOp ι)} {rs : List Out}
    (hs : SpecRunO c size ls ops ls' rs) : ∀ {w : World ι}, WorldOk c (clean w ls) (owned ls) → w.heap.length = size →
      ∃ w', runO c w ops = .ok (w', rs, 0) ∧ WorldOk c (clean w' ls') (owned ls') ∧ w'.heap.length = size := by
  induction hs with
  | nil ls => intro w hw hl; exact ⟨w, rfl, hw, hl⟩
  | @on ls i L o L' r os ls' rs hi h hn hr ih =>
    intro w hw hl
    subst hl
    obtain ⟨w1, e1, hl1, hw1, _⟩ := stepW_ok hw (i := i) (by simpa [owned, hi] using h) hn
    have hci : (clean w ls).lists i = w.lists i := by simp [clean, hi]
    unfold stepW at e1
    rw [hci] at e1
    obtain ⟨⟨⟨h1, l1⟩, r1, p1⟩, e2, e3⟩ := Outcome.bind_eq_ok.mp e1
    simp only [Outcome.pure_eq_ok, Outcome.ok.injEq, Prod.mk.injEq] at e3
    obtain ⟨rfl, rfl, rfl⟩ := e3
    have e4 : stepO c w (.on i o) = .ok (⟨h1, fun j => if j = i then l1 else w.lists j⟩, r1, 0) := by
      have : step c w.heap (w.lists i) o = .ok ((h1, l1), r1, 0) := e2
      simp [stepO, stepW, this]
    have hcl : clean ⟨h1, fun j => if j = i then l1 else w.lists j⟩ (fun j => if j = i then some L' else ls j)
        = ⟨h1, fun j => if j = i then l1 else (clean w ls).lists j⟩ := by
      unfold clean
      congr 1
      funext j
      by_cases hj : j = i <;> simp [hj]
    have how : owned (fun j => if j = i then some L' else ls j) = fun j => if j = i then L' else owned ls j := by
      funext j
      by_cases hj : j = i <;> simp [owned, hj]
    obtain ⟨w2, e5, hw2, hl2⟩ := ih (w := ⟨h1, fun j => if j = i then l1 else w.lists j⟩) (by rw [hcl, how]; exact hw1) hl1
    exact ⟨w2, by simp [runO, e4, e5], hw2, hl2⟩
  | @take ls dst src L os ls' rs hs hd hne hr ih =>
    intro w hw hl
    obtain ⟨w2, e5, hw2, hl2⟩ := ih (w := ⟨w.heap, fun j => if j = dst then w.lists src else w.lists j⟩) (by
      have hos : owned ls src = L := by simp [owned, hs]
      have hsw := hw.wf src
      have how : ∀ j, owned (fun j => if j = dst then some L else if j = src then (if L = [] then some [] else none) else ls j) j
          = if j = dst then L else if j = src then [] else owned ls j := by
        intro j
        by_cases h1 : j = dst
        · simp [owned, h1]
        · by_cases h2 : j = src
          · by_cases h3 : L = [] <;> simp [owned, h1, h2, h3, hne.symm]
          · simp [owned, h1, h2]
      refine ⟨fun j => ?_, fun j k hjk a => ?_, fun hp a ha hfree => ?_⟩
      · rw [how]
        by_cases h1 : j = dst
        · subst h1
          simpa [clean, hs, hos] using hsw
        · by_cases h2 : j = src
          · subst h2
            by_cases h3 : L = []
            · simpa [clean, h1, h3, hos, hs] using hsw
            · simp only [clean, h1, h3, if_false, if_true]
              exact ⟨by simp, rfl, rfl, trivial⟩
          · simpa [clean, h1, h2] using hw.wf j
      · rw [how, how]
        by_cases h1 : j = dst
        · subst h1
          by_cases h2 : k = src
          · subst h2; simp [hne.symm]
          · have h5 : ¬ k = j := fun e => hjk e.symm
            simpa [h5, h2, hos] using hw.disj src k (fun e => h2 e.symm) a
        · by_cases h2 : j = src
          · simp [h1, h2, hne.symm]
          · by_cases h3 : k = dst
            · simpa [h1, h2, h3, hos] using hw.disj j src h2 a
            · by_cases h4 : k = src
              · simp [h1, h2, h3, h4, hne.symm]
              · simpa [h1, h2, h3, h4] using hw.disj j k hjk a
      · refine hw.free hp a ha (fun j => ?_)
        have := hfree j
        rw [how] at this
        by_cases h1 : j = dst
        · rw [h1, hd]; simp
        · by_cases h2 : j = src
          · have := hfree dst
            rw [how] at this
            simpa [h2, hos] using this
          · simpa [h1, h2] using this) hl
    exact ⟨w2, by simp [runO, stepO, e5], hw2, hl2⟩
  | @keep ls dst src os ls' rs hd hne hr ih =>
    intro w hw hl
    obtain ⟨w2, e5, hw2, hl2⟩ := ih (w := ⟨w.heap, fun j => if j = dst then w.lists src else w.lists j⟩) (by
      have how : owned (fun j => if j = dst then none else ls j) = owned ls := by
        funext j
        by_cases h1 : j = dst
        · subst h1; rw [hd]; simp [owned]
        · simp [owned, h1]
      rw [how]
      refine ⟨fun j => ?_, hw.disj, hw.free⟩
      by_cases h1 : j = dst
      · subst h1
        rw [hd]
        simp only [clean, if_true]
        exact ⟨by simp, rfl, rfl, trivial⟩
      · simpa [clean, h1] using hw.wf j) hl
    exact ⟨w2, by simp [runO, stepO, e5], hw2, hl2⟩
  | @self ls i os ls' rs hr ih =>
    intro w hw hl
    have hself : (⟨w.heap, fun j => if j = i then w.lists i else w.lists j⟩ : World ι) = w := by
      congr 1
      funext j
      by_cases hj : j = i <;> simp [hj]
    obtain ⟨w2, e5, hw2, hl2⟩ := ih hw hl
    exact ⟨w2, by simp [runO, stepO, hself, e5], hw2, hl2⟩

theorem startO_ok {ι : Type} {c : Cfg} {h : Heap} (hf : Fresh c h) : WorldOk c (clean (start ι h) (fun _ => some [])) (owned fun _ => some []) := by
  have := start_ok (ι := ι) hf
  have e : (owned fun _ : ι => some ([] : List Nat)) = fun _ => [] := by funext i; rfl
  rw [e]
  simpa [clean, start] using this

/-- **C107, partial.** In every history in which, after a copy or move, only one of the two list objects is used, no operation panics or
is undefined, every call returns what the abstract sequences say, and iterating a list that may be used yields exactly its sequence: a list
can be returned from a function, moved and swapped. Missing: the use of both objects and the overwriting of a list that holds nodes, see
`C107_both_violated` and `C107_overwrite_violated`. -/
theorem C107_transfer_partial {ι : Type} [DecidableEq ι] {c : Cfg} {h : Heap} (hf : Fresh c h) {ops : List (OOp ι)}
    {ls' : ι → Option (List Nat)} {rs : List Out} (hs : SpecRunO c h.length (fun _ => some []) ops ls' rs) :
    ∃ w', runO c (start ι h) ops = .ok (w', rs, 0) ∧
      ∀ i L, ls' i = some L → walk w'.heap w'.heap.length (w'.lists i).head = .ok L ∧
        walkBack w'.heap w'.heap.length (w'.lists i).tail = .ok L.reverse := by
  obtain ⟨w', e, hw, _⟩ := runO_ok hs (startO_ok (ι := ι) hf) rfl
  refine ⟨w', e, fun i L hi => ?_⟩
  have w := hw.wf i
  have e1 : (clean w' ls').lists i = w'.lists i := by simp [clean, hi]
  have e2 : owned ls' i = L := by simp [owned, hi]
  have e3 : (clean w' ls').heap = w'.heap := rfl
  rw [e1, e2, e3] at w
  refine ⟨by rw [w.head]; exact walk_ok _ w.links (wf_len w), ?_⟩
  have := walkBack_ok (h := w'.heap) L.reverse (q := none) (fuel := w'.heap.length) (by simpa using w.links) (by simpa using wf_len w)
  simpa [w.tail] using this

/-- **C107, reading.** Until an operation changes one of them, a copy gives the same answers as the original. -/
theorem C107_copy_reads {ι : Type} [DecidableEq ι] (c : Cfg) (w w1 : World ι) (dst src : ι) (r : Out) (p : Nat)
    (h : stepO c w (.copy dst src) = .ok (w1, r, p)) (o : Op) :
    p = 0 ∧ step c w1.heap (w1.lists dst) o = step c w.heap (w.lists src) o := by
  simp only [stepO, Outcome.ok.injEq, Prod.mk.injEq] at h
  obtain ⟨rfl, _, rfl⟩ := h
  simp

/-- **C107 does not hold when both are used.** In every reachable state, after a list of at least two nodes is copied or moved to another
list object: the source still has its nodes; and, with the checked policy, once a node is popped from the source, iterating the other
object gives that node alone, although the source has the remaining ones and `back()` of the other object is still its last node. -/
theorem C107_both_violated {ι : Type} [DecidableEq ι] {c : Cfg} {h : Heap} (hc : c.policy = .checked) (hf : Fresh c h)
    {ops : List (ι × Op)} {ls : ι → List Nat} {rs : List Out} (hs : SpecRun c h.length (fun _ => []) ops ls rs)
    {i j : ι} (hij : j ≠ i) {x y : Nat} {L : List Nat} (hi : ls i = x :: y :: L) :
    ∃ w w1 w2, runW c (start ι h) ops = .ok (w, rs, 0) ∧ stepO c w (.copy j i) = .ok (w1, .unit, 0) ∧
      stepO c w1 (.on i .empty) = .ok (w1, .bool false, 0) ∧
      stepO c w1 (.on i .popFront) = .ok (w2, .node (some x), 0) ∧
      walk w2.heap w2.heap.length (w2.lists i).head = .ok (y :: L) ∧
      (∀ fuel, walk w2.heap (fuel + 1) (w2.lists j).head = .ok [x]) ∧
      (w2.lists j).tail = (y :: L).getLast? := by
  obtain ⟨w, e, hw, hl⟩ := runW_ok hs (start_ok (ι := ι) hf) rfl
  have w0 := hw.wf i
  obtain ⟨w', e', hl', hw', hfr⟩ := stepW_ok hw (i := i) (o := .popFront) (L' := y :: L) (r := .node (some x))
    (by rw [hi]; rfl) ⟨fun n hn => by simp [Op.added] at hn, fun n hn => by simp at hn⟩
  have hx := hw'.free hc x (by
    have := links_lt _ w0.links x (by rw [hi]; simp)
    rw [hl']; exact this) (fun k => by
    by_cases hk : k = i
    · subst hk
      have := w0.nodup
      rw [hi] at this
      simpa using (List.nodup_cons.mp this).1
    · simp only [hk, if_false]
      exact hw.disj i k (fun e => hk e.symm) x (by rw [hi]; simp))
  unfold stepW at e'
  obtain ⟨⟨⟨h1, l1⟩, r1, p1⟩, e2, e3⟩ := Outcome.bind_eq_ok.mp e'
  simp only [Outcome.pure_eq_ok, Outcome.ok.injEq, Prod.mk.injEq] at e3
  obtain ⟨rfl, rfl, rfl⟩ := e3
  have hwi := hw'.wf i
  simp only [if_true] at hwi
  refine ⟨w, ⟨w.heap, fun k => if k = j then w.lists i else w.lists k⟩,
    ⟨h1, fun k => if k = i then l1 else if k = j then w.lists i else w.lists k⟩, e, rfl, ?_, ?_, ?_, ?_, ?_⟩
  · have hh := w0.head
    rw [hi] at hh
    have : (fun k => if k = i then w.lists i else if k = j then w.lists i else w.lists k) = fun k => if k = j then w.lists i else w.lists k := by
      funext k
      by_cases hk : k = i
      · subst hk; simp [hij.symm]
      · simp [hk]
    simp only [stepO, stepW, step, hij.symm, if_false, Outcome.ok_bind, Outcome.pure_eq_ok, this, hh]
    simp
  · have : step c w.heap (w.lists i) .popFront = .ok ((h1, l1), .node (some x), 0) := e2
    simp [stepO, stepW, hij.symm, this]
  · simp only [if_true]
    rw [hwi.head]
    exact walk_ok _ hwi.links (wf_len hwi)
  · intro fuel
    have hh := w0.head
    rw [hi] at hh
    have hx' : h1[x]? = some ⟨none, none⟩ := hx
    simp [hij, hh, walk, rd_ok hx']
  · have ht := w0.tail
    rw [hi] at ht
    simpa [hij] using ht

/-- **C107 does not hold when a list that holds nodes is overwritten.** With the checked policy the nodes of the overwritten list, now in
no list, keep their links, so adding any of them to any list calls the panic handler (at least two nodes). -/
theorem C107_overwrite_violated {ι : Type} [DecidableEq ι] {c : Cfg} {h : Heap} (hc : c.policy = .checked)
    (hh : c.handler = .noreturn) (hf : Fresh c h) {ops : List (ι × Op)} {ls : ι → List Nat} {rs : List Out}
    (hs : SpecRun c h.length (fun _ => []) ops ls rs) {i j : ι} (hi : ls i = []) (hj : 2 ≤ (ls j).length)
    {n : Nat} (hn : n ∈ ls j) {k : ι} {o : Op} (ho : o.added = some n) :
    ∃ w w1, runW c (start ι h) ops = .ok (w, rs, 0) ∧ stepO c w (.copy j i) = .ok (w1, .unit, 0) ∧
      stepO c w1 (.on j .empty) = .ok (w1, .bool true, 0) ∧ stepO c w1 (.on k o) = .panic := by
  obtain ⟨w, e, hw, hl⟩ := runW_ok hs (start_ok (ι := ι) hf) rfl
  obtain ⟨nd, hnd, hlk⟩ := member_linked (hw.wf j) hj hn
  have hck := check_linked hc hnd hlk
  rw [hh] at hck
  have hhd := (hw.wf i).head
  rw [hi] at hhd
  refine ⟨w, ⟨w.heap, fun k => if k = j then w.lists i else w.lists k⟩, e, rfl, ?_, ?_⟩
  · have : (fun k => if k = j then w.lists i else if k = j then w.lists i else w.lists k) = fun k => if k = j then w.lists i else w.lists k := by
      funext k
      by_cases hk : k = j <;> simp [hk]
    simp only [stepO, stepW, step, if_true, Outcome.ok_bind, Outcome.pure_eq_ok, this, hhd]
    simp
  · cases o <;> simp [Op.added] at ho <;> subst ho
    · simp [stepO, stepW, step, pushFront, hck]
    · simp [stepO, stepW, step, pushBack, hck]
    · simp only [stepO, stepW, step, insert]
      split <;> simp [pushBack, hck]

theorem runO_append {ι : Type} [DecidableEq ι] (c : Cfg) (b : List (OOp ι)) : ∀ (a : List (OOp ι)) (w : World ι),
    runO c w (a ++ b) = runO c w a >>= fun x => runO c x.1 b >>= fun y => .ok (y.1, x.2.1 ++ y.2.1, x.2.2 + y.2.2) := by
  intro a
  induction a with
  | nil => intro w; simp only [List.nil_append, runO, Outcome.ok_bind]; cases runO c w b <;> simp
  | cons o a ih =>
    intro w
    simp only [List.cons_append, runO]
    cases stepO c w o with
    | ub => simp
    | panic => simp
    | ok y =>
      simp only [Outcome.ok_bind, ih]
      cases runO c y.1 a with
      | ub => simp
      | panic => simp
      | ok z =>
        simp only [Outcome.ok_bind, Outcome.pure_eq_ok]
        cases runO c z.1 b <;> simp [Nat.add_assoc]

theorem runO_on {ι : Type} [DecidableEq ι] (c : Cfg) : ∀ (ops : List (ι × Op)) (w : World ι),
    runO c w (ops.map fun x => .on x.1 x.2) = runW c w ops := by
  intro ops
  induction ops with
  | nil => intro w; rfl
  | cons x ops ih =>
    intro w
    simp only [List.map_cons, runO, runW, stepO]
    cases stepW c w x.1 x.2 with
    | ub => simp
    | panic => simp
    | ok y => simp [ih]

/-- **C107 overwriting, whole histories.** With a panic handler that returns, a history in which nodes are added only while they are in
no list, followed by overwriting a list and adding one of the nodes it held, has called the handler exactly once. -/
theorem C107_overwrite_history_violated {ι : Type} [DecidableEq ι] {c : Cfg} {h : Heap} (hc : c.policy = .checked)
    (hh : c.handler = .returns) (hf : Fresh c h) {ops : List (ι × Op)} {ls : ι → List Nat} {rs : List Out}
    (hs : SpecRun c h.length (fun _ => []) ops ls rs) {i j : ι} (hj : 2 ≤ (ls j).length)
    {n : Nat} (hn : n ∈ ls j) {k : ι} {o : Op} (ho : o.added = some n) :
    ∀ w' rs' p, runO c (start ι h) ((ops.map fun x => .on x.1 x.2) ++ [.copy j i, .on k o]) = .ok (w', rs', p) → p = 1 := by
  intro w' rs' p hr
  obtain ⟨w, e, hw, hl⟩ := runW_ok hs (start_ok (ι := ι) hf) rfl
  obtain ⟨nd, hnd, hlk⟩ := member_linked (hw.wf j) hj hn
  have hck := check_linked hc hnd hlk
  rw [hh] at hck
  rw [runO_append, runO_on, e, Outcome.ok_bind] at hr
  simp only [runO, stepO, Outcome.ok_bind, Outcome.pure_eq_ok] at hr
  cases hst : stepO c ⟨w.heap, fun l => if l = j then w.lists i else w.lists l⟩ (.on k o) with
  | ub => simp only [stepO] at hst; rw [hst] at hr; simp at hr
  | panic => simp only [stepO] at hst; rw [hst] at hr; simp at hr
  | ok y =>
    have hst' := hst
    simp only [stepO] at hst'
    rw [hst'] at hr
    simp only [Outcome.ok_bind, Outcome.ok.injEq, Prod.mk.injEq, Nat.zero_add, Nat.add_zero] at hr
    rw [← hr.2.2]
    obtain ⟨w2, r2, p2⟩ := y
    have fin : ∀ (x : Outcome (Heap × Lst)) (f : Lst → ι → Lst),
        (do let (r, p) ← (do let p ← check c w.heap n; let r ← x; return (r, p))
            return (r, Out.unit, p) : Outcome ((Heap × Lst) × Out × Nat)) >>=
          (fun y => (.ok (⟨y.1.1, f y.1.2⟩, y.2.1, y.2.2) : Outcome (World ι × Out × Nat))) = .ok (w2, r2, p2) → p2 = 1 := by
      intro x f hq
      rw [hck] at hq
      cases x with
      | ok q => simp at hq; exact hq.2.2.symm
      | ub => simp at hq
      | panic => simp at hq
    have fin : ∀ (x : Outcome (Heap × Lst)), _ := fun x => fin x (fun l m => if m = k then l else if m = j then w.lists i else w.lists m)
    cases o <;> simp [Op.added] at ho <;> subst ho
    · exact fin (uncheckedPushFront w.heap _ _) hst
    · exact fin (uncheckedPushBack w.heap _ _) hst
    · simp only [stepO, stepW, step] at hst
      generalize (if k = j then w.lists i else w.lists k) = l at hst
      by_cases hl0 : l.head = none
      · simp only [insert, hl0, if_true] at hst
        exact fin (uncheckedPushBack w.heap _ _) hst
      · simp only [insert, hl0, if_false] at hst
        exact fin (uncheckedInsert w.heap _ _ _) hst

/-- C107: two lists are swapped through a third object and used afterwards. -/
example : SpecRunO (ι := Nat) ⟨.checked, .noreturn⟩ heap3.length (fun _ => some [])
    [.on 0 (.pushBack 0), .on 0 (.pushBack 1), .on 1 (.pushBack 2), .copy 2 0, .copy 0 1, .copy 1 2, .on 0 .popFront, .on 1 (.pushFront 2),
      .on 1 .iterate]
    (fun j => if j = 1 then some [2, 0, 1] else if j = 0 then some [] else if j = 2 then none else some [])
    [.unit, .unit, .unit, .unit, .unit, .unit, .node (some 2), .unit, .nodes [2, 0, 1]] := by
  have fin : ∀ ls ls' : Nat → Option (List Nat), ls = ls' → SpecRunO ⟨.checked, .noreturn⟩ heap3.length ls [] ls' [] := by
    rintro ls _ rfl; exact .nil _
  refine .on (L := []) (L' := [0]) rfl rfl (by simp [NodeOk, Op.added, heap3, owned]) ?_
  refine .on (L := [0]) (L' := [0, 1]) rfl rfl (by
    refine ⟨fun n hn => ⟨by cases hn; decide, fun j => ?_⟩, by simp⟩
    cases hn; by_cases hj : j = 0 <;> simp [owned, hj]) ?_
  refine .on (L := []) (L' := [2]) rfl rfl (by
    refine ⟨fun n hn => ⟨by cases hn; decide, fun j => ?_⟩, by simp⟩
    cases hn; by_cases hj : j = 0 <;> simp [owned, hj]) ?_
  refine .take (L := [0, 1]) rfl rfl (by decide) ?_
  refine .take (L := [2]) rfl rfl (by decide) ?_
  refine .take (L := [0, 1]) rfl rfl (by decide) ?_
  refine .on (L := [2]) (L' := []) rfl rfl (by simp [NodeOk, Op.added]) ?_
  refine .on (L := [0, 1]) (L' := [2, 0, 1]) rfl rfl (by
    refine ⟨fun n hn => ⟨by cases hn; decide, fun j => ?_⟩, by simp⟩
    cases hn
    by_cases h0 : j = 0
    · simp [owned, h0]
    · by_cases h1 : j = 1
      · simp [owned, h1]
      · by_cases h2 : j = 2 <;> simp [owned, h0, h1, h2]) ?_
  refine .on (L := [2, 0, 1]) (L' := [2, 0, 1]) rfl rfl (by simp [NodeOk, Op.added]) ?_
  refine fin _ _ ?_
  funext j
  by_cases h0 : j = 0
  · simp [h0]
  · by_cases h1 : j = 1
    · simp [h1]
    · by_cases h2 : j = 2 <;> simp [h0, h1, h2]

/-- C107, violations: after `ops3` list `false` is `0, 1` and list `true` is empty. -/
example : ∃ w w1 w2, runW ⟨.checked, .noreturn⟩ (start Bool heap3) ops3 = .ok (w,
      [.unit, .unit, .unit, .nodes [2, 0], .unit, .unit, .nodes [1, 0], .node (some 2)], 0) ∧
    stepO ⟨.checked, .noreturn⟩ w (.copy true false) = .ok (w1, .unit, 0) ∧
    stepO ⟨.checked, .noreturn⟩ w1 (.on false .popFront) = .ok (w2, .node (some 0), 0) ∧
    walk w2.heap 3 (w2.lists true).head = .ok [0] := by
  obtain ⟨w, w1, w2, e, e1, _, e2, _, e3, _⟩ := C107_both_violated (i := false) (j := true) rfl
    (by intro _ nd h; simp [heap3] at h; exact h) ops3_spec (by decide) (x := 0) (y := 1) (L := []) rfl
  exact ⟨w, w1, w2, e, e1, e2, e3 2⟩

example : ∃ w w1, runW ⟨.checked, .noreturn⟩ (start Bool heap3) ops3 = .ok (w,
      [.unit, .unit, .unit, .nodes [2, 0], .unit, .unit, .nodes [1, 0], .node (some 2)], 0) ∧
    stepO ⟨.checked, .noreturn⟩ w (.copy false true) = .ok (w1, .unit, 0) ∧
    stepO ⟨.checked, .noreturn⟩ w1 (.on true (.pushBack 0)) = .panic := by
  obtain ⟨w, w1, e, e1, _, e2⟩ := C107_overwrite_violated (i := true) (j := false) (k := true) (n := 0) (o := .pushBack 0) rfl rfl
    (by intro _ nd h; simp [heap3] at h; exact h) ops3_spec rfl (by decide) (by simp) rfl
  exact ⟨w, w1, e, e1, e2⟩

end Verif.IList
