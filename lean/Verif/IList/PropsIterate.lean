import Verif.IList.Iterate
import Verif.IList.Props

/-!
# Iterators of `intrusive_list` while the lists change (C120)
-/

namespace Verif.IList

/-! ## Specification

Lists are sequences of nodes; an iterator is at a node, or at the end (`none`). -/

/-- What an operation does to the sequences and the positions, and what it returns.  An iterator may be advanced or
dereferenced while the node it is at is in some list. -/
inductive ISpec {ι κ : Type} [DecidableEq ι] [DecidableEq κ] (c : Cfg) (size : Nat) :
    (ι → List Nat) → (κ → Option Nat) → IOp ι κ → (ι → List Nat) → (κ → Option Nat) → Out → Prop where
  | list {ls its i o l' r} (h : specStep (ls i) o = some (l', r)) (hn : NodeOk c size ls i o) :
      ISpec c size ls its (.list i o) (fun j => if j = i then l' else ls j) its r
  | begin {ls its} (k i) : ISpec c size ls its (.begin k i) ls (fun m => if m = k then (ls i).head? else its m) .unit
  | endOf {ls its} (k) : ISpec c size ls its (.endOf k) ls (fun m => if m = k then none else its m) .unit
  | copy {ls its} (k k') : ISpec c size ls its (.copy k k') ls (fun m => if m = k' then its k else its m) .unit
  | inc {ls its k x i A B} (hk : its k = some x) (hl : ls i = A ++ x :: B) :
      ISpec c size ls its (.inc k) ls (fun m => if m = k then B.head? else its m) .unit
  | postInc {ls its k k' x i A B} (hk : its k = some x) (hl : ls i = A ++ x :: B) :
      ISpec c size ls its (.postInc k k') ls
        (fun m => if m = k' then some x else if m = k then B.head? else its m) .unit
  | deref {ls its k x i} (hk : its k = some x) (hl : x ∈ ls i) : ISpec c size ls its (.deref k) ls its (.node (some x))
  | eq {ls its} (k k') : ISpec c size ls its (.eq k k') ls its (.bool (decide (its k = its k')))
  | insertAt {ls its i k n l' r} (h : specStep (ls i) (.insert (its k) n) = some (l', r))
      (hn : NodeOk c size ls i (.insert (its k) n)) :
      ISpec c size ls its (.insertAt i k n) (fun j => if j = i then l' else ls j) its r
  | removeAt {ls its i k x A B} (hk : its k = some x) (hl : ls i = A ++ x :: B) :
      ISpec c size ls its (.removeAt i k) (fun j => if j = i then A ++ B else ls j) its .unit

/-- A history of such operations. -/
inductive ISpecRun {ι κ : Type} [DecidableEq ι] [DecidableEq κ] (c : Cfg) (size : Nat) :
    (ι → List Nat) → (κ → Option Nat) → List (IOp ι κ) → (ι → List Nat) → (κ → Option Nat) → List Out → Prop where
  | nil (ls its) : ISpecRun c size ls its [] ls its []
  | cons {ls its o ls1 its1 r os ls2 its2 rs} (h : ISpec c size ls its o ls1 its1 r)
      (hr : ISpecRun c size ls1 its1 os ls2 its2 rs) : ISpecRun c size ls its (o :: os) ls2 its2 (r :: rs)

/-! ## Lemmas -/

theorem links_at {h : Heap} {p : Ptr} {A B : List Nat} {x : Nat} (hl : Links h p (A ++ x :: B) none) :
    h[x]? = some ⟨A.getLast?.or p, B.head?⟩ ∧ Links h (some x) B none := by
  rw [links_append] at hl
  have := hl.2
  simp only [Links] at this
  exact ⟨by simpa using this.1, this.2⟩

theorem inc_at {ι : Type} {c : Cfg} {w : World ι} {ls : ι → List Nat} (hw : WorldOk c w ls) {i : ι} {A B : List Nat} {x : Nat}
    (hl : ls i = A ++ x :: B) : inc w.heap (some x) = .ok B.head? ∧ deref w.heap (some x) = .ok (some x) := by
  have h1 := (hw.wf i).links
  rw [hl] at h1
  have h2 := (links_at h1).1
  simp [inc, deref, refTo, rd_ok h2]

theorem remove_spec {ι : Type} {c : Cfg} {w : World ι} {ls : ι → List Nat} (hw : WorldOk c w ls) {i : ι} {A B : List Nat} {x : Nat}
    (hl : ls i = A ++ x :: B) : specStep (ls i) (.remove x) = some (A ++ B, .unit) := by
  have hnd := (hw.wf i).nodup
  have hm : x ∈ ls i := by rw [hl]; simp
  simp only [specStep, if_pos hm]
  rw [hl] at hnd ⊢
  rw [filter_mid hnd]

theorem remove_node {ι : Type} (c : Cfg) (size : Nat) (ls : ι → List Nat) (i : ι) (x : Nat) :
    NodeOk c size ls i (.remove x) := ⟨fun n h => by simp [Op.added] at h, fun n h => by simp at h⟩

theorem stepI_ok {ι κ : Type} [DecidableEq ι] [DecidableEq κ] {c : Cfg} {p : Prog ι κ} {ls ls' : ι → List Nat}
    {its' : κ → Option Nat} {o : IOp ι κ} {r : Out} (hw : WorldOk c p.world ls)
    (hs : ISpec c p.world.heap.length ls p.its o ls' its' r) :
    ∃ w', stepI c p o = .ok (⟨w', its'⟩, r, 0) ∧ WorldOk c w' ls' ∧ w'.heap.length = p.world.heap.length := by
  cases hs with
  | list h hn =>
    obtain ⟨w', e, hlen, hw', _⟩ := stepW_ok hw h hn
    exact ⟨w', by simp [stepI, e], hw', hlen⟩
  | begin k i =>
    refine ⟨p.world, ?_, hw, rfl⟩
    simp only [stepI, (hw.wf i).head]
    rfl
  | endOf k => exact ⟨p.world, rfl, hw, rfl⟩
  | copy k k' => exact ⟨p.world, rfl, hw, rfl⟩
  | inc hk hl =>
    refine ⟨p.world, ?_, hw, rfl⟩
    simp only [stepI, hk, (inc_at hw hl).1, Outcome.ok_bind]
    rfl
  | postInc hk hl =>
    refine ⟨p.world, ?_, hw, rfl⟩
    simp only [stepI, postInc, hk, (inc_at hw hl).1, Outcome.ok_bind]
    rfl
  | deref hk hl =>
    obtain ⟨A, B, e⟩ := List.append_of_mem hl
    refine ⟨p.world, ?_, hw, rfl⟩
    simp only [stepI, hk, (inc_at hw e).2, Outcome.ok_bind]
    rfl
  | eq k k' => exact ⟨p.world, rfl, hw, rfl⟩
  | insertAt h hn =>
    obtain ⟨w', e, hlen, hw', _⟩ := stepW_ok hw h hn
    exact ⟨w', by simp [stepI, e], hw', hlen⟩
  | removeAt hk hl =>
    obtain ⟨w', e, hlen, hw', _⟩ := stepW_ok hw (remove_spec hw hl) (remove_node _ _ _ _ _)
    exact ⟨w', by simp [stepI, hk, (inc_at hw hl).2, e], hw', hlen⟩

theorem runI_ok {ι κ : Type} [DecidableEq ι] [DecidableEq κ] {c : Cfg} {size : Nat} {ls ls' : ι → List Nat}
    {its its' : κ → Option Nat} {os : List (IOp ι κ)} {rs : List Out} (hs : ISpecRun c size ls its os ls' its' rs) :
    ∀ {w : World ι}, WorldOk c w ls → w.heap.length = size →
      ∃ w', runI c ⟨w, its⟩ os = .ok (⟨w', its'⟩, rs, 0) ∧ WorldOk c w' ls' ∧ w'.heap.length = size := by
  induction hs with
  | nil ls its => intro w hw hl; exact ⟨w, rfl, hw, hl⟩
  | cons h hr ih =>
    intro w hw hl
    subst hl
    obtain ⟨w1, e1, hw1, hl1⟩ := stepI_ok (p := ⟨w, _⟩) hw h
    obtain ⟨w2, e2, hw2, hl2⟩ := ih hw1 hl1
    exact ⟨w2, by simp [runI, e1, e2], hw2, hl2⟩

/-! ## Properties -/

/-- **C120, iterators (partial: `insert(end(), n)` of a non-empty list under the unchecked policy is excluded, see
`C22_insert_end_violated`).** In every history of operations on any number of lists and iterators, in which an iterator is
advanced or dereferenced only while its node is in a list, every operation returns what the sequences and positions say:
an iterator stays at its node whatever happens to the lists, and advancing it leads to the node that follows in the list
the node is in by then.  At the end, iterating from it gives exactly the elements from its node on. -/
theorem C120_iterators_partial {ι κ : Type} [DecidableEq ι] [DecidableEq κ] {c : Cfg} {h : Heap} (hf : Fresh c h)
    {os : List (IOp ι κ)} {ls : ι → List Nat} {its : κ → Option Nat} {rs : List Out}
    (hs : ISpecRun c h.length (fun _ => []) (fun _ => none) os ls its rs) :
    ∃ p : Prog ι κ, runI c ⟨start ι h, fun _ => none⟩ os = .ok (p, rs, 0) ∧ p.its = its ∧
      (∀ i, walk p.world.heap h.length (p.world.lists i).head = .ok (ls i)) ∧
      ∀ k x i A B, its k = some x → ls i = A ++ x :: B → walk p.world.heap h.length (p.its k) = .ok (x :: B) := by
  obtain ⟨w, e, hw, hlen⟩ := runI_ok hs (start_ok (ι := ι) hf) rfl
  refine ⟨⟨w, its⟩, e, rfl, fun i => ?_, fun k x i A B hk hl => ?_⟩
  · rw [(hw.wf i).head]
    exact walk_ok _ (hw.wf i).links (hlen ▸ wf_len (hw.wf i))
  · have h1 := hw.wf i
    have h2 := wf_len h1
    have h3 := h1.links
    rw [hl] at h2 h3
    rw [links_append] at h3
    simp at h2
    show walk w.heap h.length (its k) = _
    rw [hk]
    exact walk_ok (x :: B) (p := A.getLast?.or none) h3.2 (by simp; omega)

/-- A loop that advances before it acts, on the sequences: `x` is visited if the iterator is at it, and the
next one is the element that follows `x` when it is visited; what is visited then must still be in the list. -/
inductive Sweep {ι : Type} [DecidableEq ι] (c : Cfg) (size : Nat) (i : ι) (body : Nat → List (ι × Op)) :
    (ι → List Nat) → Option Nat → List Nat → (ι → List Nat) → Prop where
  | done (ls) : Sweep c size i body ls none [] ls
  | turn {ls x A B ls1 rs vis ls'} (hl : ls i = A ++ x :: B) (hb : SpecRun c size ls (body x) ls1 rs)
      (hr : Sweep c size i body ls1 B.head? vis ls') : Sweep c size i body ls (some x) (x :: vis) ls'

theorem sweep_ok {ι : Type} [DecidableEq ι] {c : Cfg} {size : Nat} {i : ι} {body : Nat → List (ι × Op)}
    {ls ls' : ι → List Nat} {it : Option Nat} {vis : List Nat} (hs : Sweep c size i body ls it vis ls') :
    ∀ {w : World ι} {fuel : Nat}, WorldOk c w ls → w.heap.length = size → vis.length ≤ fuel →
      ∃ w', sweep c body fuel w it = .ok (w', vis, 0) ∧ WorldOk c w' ls' ∧ w'.heap.length = size := by
  induction hs with
  | done ls => intro w fuel hw hl _; exact ⟨w, by cases fuel <;> rfl, hw, hl⟩
  | turn hl hb hr ih =>
    intro w fuel hw hsz hfu
    cases fuel with
    | zero => simp at hfu
    | succ fuel =>
      have h1 := inc_at hw hl
      obtain ⟨w1, e1, hw1, hl1⟩ := runW_ok hb hw hsz
      obtain ⟨w2, e2, hw2, hl2⟩ := ih hw1 hl1 (by simpa using hfu)
      exact ⟨w2, by simp [sweep, postInc, h1.1, h1.2, e1, e2], hw2, hl2⟩

/-- **C120, loops.** After any history, a loop that advances before it acts on an element may do anything to the
lists that leaves the element it has advanced to in the list: it visits what the sequences say. -/
theorem C120_loop_partial {ι : Type} [DecidableEq ι] {c : Cfg} {h : Heap} (hf : Fresh c h) {ops : List (ι × Op)}
    {ls ls' : ι → List Nat} {rs : List Out} (hs : SpecRun c h.length (fun _ => []) ops ls rs) {i : ι}
    {body : Nat → List (ι × Op)} {vis : List Nat} (hb : Sweep c h.length i body ls (ls i).head? vis ls') (fuel : Nat)
    (hfu : vis.length ≤ fuel) :
    ∃ w w', runW c (start ι h) ops = .ok (w, rs, 0) ∧ sweep c body fuel w (w.lists i).head = .ok (w', vis, 0) ∧
      ∀ j, walk w'.heap h.length (w'.lists j).head = .ok (ls' j) := by
  obtain ⟨w, e, hw, hlen⟩ := runW_ok hs (start_ok (ι := ι) hf) rfl
  obtain ⟨w', e', hw', hlen'⟩ := sweep_ok hb (fuel := fuel) hw hlen hfu
  refine ⟨w, w', e, by rw [(hw.wf i).head]; exact e', fun j => ?_⟩
  rw [(hw'.wf j).head]
  exact walk_ok _ (hw'.wf j).links (hlen' ▸ wf_len (hw'.wf j))

theorem erase_sweep {ι : Type} [DecidableEq ι] (c : Cfg) (size : Nat) (i : ι) (p : Nat → Bool) (B : List Nat) :
    ∀ (A : List Nat) (ls : ι → List Nat), (A ++ B).Nodup → ls i = A ++ B →
      Sweep c size i (fun x => if p x then [(i, .remove x)] else []) ls B.head? B
        (fun j => if j = i then A ++ B.filter (fun x => !p x) else ls j) := by
  induction B with
  | nil =>
    intro A ls _ hl
    have : (fun j => if j = i then A ++ [].filter (fun x => !p x) else ls j) = ls := by
      funext j; by_cases hj : j = i
      · subst hj; simp [hl]
      · simp [hj]
    rw [this]; exact .done ls
  | cons x B ih =>
    intro A ls hnd hl
    cases hp : p x with
    | false =>
      have := ih (A ++ [x]) ls (by simpa using hnd) (by simpa using hl)
      refine .turn hl (by simp only [hp]; exact .nil _) ?_
      simpa [hp] using this
    | true =>
      have hn2 : (A ++ B).Nodup := (List.nodup_cons.mp (List.perm_middle.nodup_iff.mp hnd)).2
      have := ih A (fun j => if j = i then A ++ B else ls j) hn2 (by simp)
      refine .turn hl (ls1 := fun j => if j = i then A ++ B else ls j) (rs := [.unit]) ?_ ?_
      · simp only [hp, if_true]
        refine .cons (l' := A ++ B) (r := .unit) ?_ (remove_node _ _ _ _ _) (.nil _)
        have hm : x ∈ ls i := by rw [hl]; simp
        simp only [specStep, if_pos hm]
        rw [hl, filter_mid hnd]
      · have e2 : (fun j => if j = i then A ++ (x :: B).filter (fun y => !p y) else ls j) =
            (fun j => if j = i then A ++ B.filter (fun y => !p y) else if j = i then A ++ B else ls j) := by
          funext j; by_cases hj : j = i <;> simp [hj, hp]
        rw [e2]; exact this

/-- **C120, erasing in a loop.** After any history, for either policy, a loop that advances first and removes the elements
that satisfy a predicate visits every element once, in order, and leaves exactly the others; no other list
changes. -/
theorem C120_erase {ι : Type} [DecidableEq ι] {c : Cfg} {h : Heap} (hf : Fresh c h) {ops : List (ι × Op)}
    {ls : ι → List Nat} {rs : List Out} (hs : SpecRun c h.length (fun _ => []) ops ls rs) (i : ι) (p : Nat → Bool) :
    ∃ w w', runW c (start ι h) ops = .ok (w, rs, 0) ∧
      sweep c (fun x => if p x then [(i, .remove x)] else []) h.length w (w.lists i).head = .ok (w', ls i, 0) ∧
      walk w'.heap h.length (w'.lists i).head = .ok ((ls i).filter fun x => !p x) ∧
      ∀ j, j ≠ i → walk w'.heap h.length (w'.lists j).head = .ok (ls j) := by
  obtain ⟨w0, _, hw0, hlen0⟩ := runW_ok hs (start_ok (ι := ι) hf) rfl
  obtain ⟨w, w', e1, e2, h3⟩ := C120_loop_partial hf hs
    (erase_sweep c h.length i p (ls i) [] ls (by simpa using (hw0.wf i).nodup) rfl) h.length (hlen0 ▸ wf_len (hw0.wf i))
  refine ⟨w, w', e1, e2, by simpa using h3 i, fun j hj => by simpa [hj] using h3 j⟩

theorem move_sweep {ι : Type} [DecidableEq ι] (c : Cfg) (size : Nat) {i j : ι} (hij : i ≠ j) (p : Nat → Bool) (B : List Nat) :
    ∀ (A : List Nat) (ls : ι → List Nat), (A ++ B).Nodup → ls i = A ++ B → (∀ x ∈ B, x < size ∧ ∀ m, m ≠ i → x ∉ ls m) →
      Sweep c size i (fun x => if p x then [(i, .remove x), (j, .pushBack x)] else []) ls B.head? B
        (fun m => if m = i then A ++ B.filter (fun x => !p x) else if m = j then ls j ++ B.filter p else ls m) := by
  induction B with
  | nil =>
    intro A ls _ hl _
    have : (fun m => if m = i then A ++ [].filter (fun x => !p x) else if m = j then ls j ++ [].filter p else ls m) = ls := by
      funext m; by_cases hm : m = i
      · subst hm; simp [hl]
      · by_cases hj : m = j
        · subst hj; simp [hm]
        · simp [hm, hj]
    rw [this]; exact .done ls
  | cons x B ih =>
    intro A ls hnd hl hx
    cases hp : p x with
    | false =>
      have := ih (A ++ [x]) ls (by simpa using hnd) (by simpa using hl) (fun y hy => hx y (by simp [hy]))
      refine .turn hl (by simp only [hp]; exact .nil _) ?_
      simpa [hp] using this
    | true =>
      have hnc := List.nodup_cons.mp (List.perm_middle.nodup_iff.mp hnd)
      have hji : j ≠ i := fun e => hij e.symm
      have := ih A (fun m => if m = i then A ++ B else if m = j then ls j ++ [x] else ls m) hnc.2 (by simp) (by
        intro y hy
        refine ⟨(hx y (by simp [hy])).1, fun m hm => ?_⟩
        have h1 := (hx y (by simp [hy])).2 m hm
        by_cases hj : m = j
        · subst hj
          simp only [if_neg hm, if_true, List.mem_append, List.mem_singleton, not_or]
          refine ⟨h1, fun e => hnc.1 (by subst e; simp [hy])⟩
        · simpa [hm, hj] using h1)
      refine .turn hl (ls1 := fun m => if m = i then A ++ B else if m = j then ls j ++ [x] else ls m) (rs := [.unit, .unit]) ?_ ?_
      · simp only [hp, if_true]
        have hm : x ∈ ls i := by rw [hl]; simp
        refine .cons (l' := A ++ B) (r := .unit) ?_ (remove_node _ _ _ _ _) ?_
        · simp only [specStep, if_pos hm]
          rw [hl, filter_mid hnd]
        · have e3 : (fun m => if m = i then A ++ B else if m = j then ls j ++ [x] else ls m) =
              (fun m => if m = j then (ls j ++ [x]) else (if m = i then A ++ B else ls m)) := by
            funext m; by_cases hm' : m = i
            · subst hm'; simp [hij]
            · by_cases hmj : m = j <;> simp [hm', hmj, hji]
          rw [e3]
          refine .cons (l' := ls j ++ [x]) (r := .unit) (by simp [specStep, hji]) ⟨?_, fun n hn => by simp at hn⟩ (.nil _)
          intro n hn
          simp only [Op.added, Option.some.injEq] at hn
          subst hn
          refine ⟨(hx x (by simp)).1, fun m => ?_⟩
          by_cases hm' : m = i
          · subst hm'; simp only [if_true]; exact hnc.1
          · simp only [if_neg hm']; exact (hx x (by simp)).2 m hm'
      · have e2 : (fun m => if m = i then A ++ (x :: B).filter (fun y => !p y) else if m = j then ls j ++ (x :: B).filter p else ls m) =
            (fun m => if m = i then A ++ B.filter (fun y => !p y) else if m = j then
              (if j = i then A ++ B else if j = j then ls j ++ [x] else ls j) ++ B.filter p
              else if m = i then A ++ B else if m = j then ls j ++ [x] else ls m) := by
          funext m; by_cases hm' : m = i
          · simp [hm', hp]
          · by_cases hmj : m = j <;> simp [hm', hmj, hp, hji]
        rw [e2]; exact this

/-- **C120, moving elements to another list in a loop.** The elements that satisfy a predicate leave the list and are pushed
to the back of another: every element is visited once, the others remain, and those moved come in order at the end of the other
list.  With checked nodes no panic is reported. -/
theorem C120_move {ι : Type} [DecidableEq ι] {c : Cfg} {h : Heap} (hf : Fresh c h) {ops : List (ι × Op)}
    {ls : ι → List Nat} {rs : List Out} (hs : SpecRun c h.length (fun _ => []) ops ls rs) {i j : ι} (hij : i ≠ j) (p : Nat → Bool) :
    ∃ w w', runW c (start ι h) ops = .ok (w, rs, 0) ∧
      sweep c (fun x => if p x then [(i, .remove x), (j, .pushBack x)] else []) h.length w (w.lists i).head = .ok (w', ls i, 0) ∧
      walk w'.heap h.length (w'.lists i).head = .ok ((ls i).filter fun x => !p x) ∧
      walk w'.heap h.length (w'.lists j).head = .ok (ls j ++ (ls i).filter p) := by
  obtain ⟨w0, _, hw0, hlen0⟩ := runW_ok hs (start_ok (ι := ι) hf) rfl
  obtain ⟨w, w', e1, e2, h3⟩ := C120_loop_partial hf hs
    (move_sweep c h.length hij p (ls i) [] ls (by simpa using (hw0.wf i).nodup) rfl
      (fun x hx => ⟨hlen0 ▸ links_lt _ (hw0.wf i).links x hx, fun m hm => hw0.disj i m (fun e => hm e.symm) x hx⟩))
    h.length (hlen0 ▸ wf_len (hw0.wf i))
  refine ⟨w, w', e1, e2, by simpa using h3 i, ?_⟩
  have := h3 j
  simpa [hij.symm] using this

/-- Removing a node under the unchecked policy leaves its own links as they were. -/
theorem remove_keeps {c : Cfg} (hc : c.policy = .unchecked) {h h' : Heap} {l l' : Lst} {A B : List Nat} {x : Nat}
    (w : WF h l (A ++ x :: B)) (e : remove c h l x = .ok (h', l')) : h'[x]? = h[x]? := by
  have hx := (links_at w.links).1
  simp only [Option.or_none] at hx
  have hnd := List.nodup_cons.mp (List.perm_middle.nodup_iff.mp w.nodup)
  have hp : ∀ y, A.getLast? = some y → y ≠ x := by
    rintro y hy rfl; exact hnd.1 (List.mem_append.mpr (.inl (List.mem_of_getLast? hy)))
  have hn : ∀ y, B.head? = some y → y ≠ x := by
    rintro y hy rfl; exact hnd.1 (List.mem_append.mpr (.inr (List.mem_of_head? hy)))
  have key : ∀ (g g' : Heap) (a b : Ptr), (∀ y, a = some y → y ≠ x) → (setNext g a b = .ok g' ∨ setPrev g a b = .ok g') →
      g'[x]? = g[x]? := by
    intro g g' a b ha hg
    cases a with
    | none => simp [setNext, setPrev] at hg
    | some y =>
      have hy := ha y rfl
      rcases hg with hg | hg
      · rw [setNext_eq] at hg
        cases hgy : g[y]? with
        | none => rw [hgy] at hg; simp at hg
        | some nd => rw [hgy] at hg; simp at hg; rw [← hg, List.getElem?_set_ne hy]
      · rw [setPrev_eq] at hg
        cases hgy : g[y]? with
        | none => rw [hgy] at hg; simp at hg
        | some nd => rw [hgy] at hg; simp at hg; rw [← hg, List.getElem?_set_ne hy]
  unfold remove at e
  rw [rd_ok hx] at e
  simp only [Outcome.ok_bind] at e
  obtain ⟨⟨h1, l1⟩, e1, e⟩ := Outcome.bind_eq_ok.mp e
  obtain ⟨⟨h2, l2⟩, e2, e⟩ := Outcome.bind_eq_ok.mp e
  obtain ⟨h3, e3, e⟩ := Outcome.bind_eq_ok.mp e
  simp at e
  simp only [onPop, hc, Outcome.ok.injEq] at e3
  have s1 : h1[x]? = h[x]? := by
    split at e1
    · simp at e1; rw [← e1.1]
    · obtain ⟨g, eg, e1⟩ := Outcome.bind_eq_ok.mp e1
      simp at e1; rw [← e1.1]
      exact key _ _ _ _ hp (.inl eg)
  have s2 : h2[x]? = h1[x]? := by
    split at e2
    · simp at e2; rw [← e2.1]
    · obtain ⟨g, eg, e2⟩ := Outcome.bind_eq_ok.mp e2
      simp at e2; rw [← e2.1]
      exact key _ _ _ _ hn (.inr eg)
  rw [← e.1, ← e3, s2, s1]

theorem after_ok {ι : Type} [DecidableEq ι] {c : Cfg} {i : ι} {p : Nat → Bool} (B : List Nat) :
    ∀ (A : List Nat) {ls : ι → List Nat} {w : World ι} (fuel : Nat), WorldOk c w ls → ls i = A ++ B → B.length ≤ fuel →
      ∃ w' vis ls', sweepAfter c (fun x => if p x then [(i, .remove x)] else []) fuel w B.head? = .ok (w', vis, 0) ∧
        WorldOk c w' ls' ∧ w'.heap.length = w.heap.length ∧
        (c.policy = .unchecked → vis = B ∧ ls' i = A ++ B.filter (fun x => !p x)) ∧
        (c.policy = .checked → vis = B.takeWhile (fun x => !p x) ++ (B.dropWhile (fun x => !p x)).take 1 ∧
          ls' i = A ++ B.takeWhile (fun x => !p x) ++ (B.dropWhile (fun x => !p x)).drop 1) := by
  induction B with
  | nil =>
    intro A ls w fuel hw hl _
    exact ⟨w, [], ls, by cases fuel <;> rfl, hw, rfl, fun _ => ⟨rfl, by simpa using hl⟩, fun _ => ⟨rfl, by simpa using hl⟩⟩
  | cons x B ih =>
    intro A ls w fuel hw hl hfu
    cases fuel with
    | zero => simp at hfu
    | succ fuel =>
      have h1 := inc_at hw hl
      cases hp : p x with
      | false =>
        obtain ⟨w', vis, ls', e, hw', hlen, hu, hc⟩ := ih (A ++ [x]) fuel hw (by simpa using hl) (by simpa using hfu)
        refine ⟨w', x :: vis, ls', ?_, hw', hlen, fun hp' => ?_, fun hp' => ?_⟩
        · simp [sweepAfter, h1.2, hp, runW, h1.1, e]
        · obtain ⟨a, b⟩ := hu hp'; simp [a, b, hp]
        · obtain ⟨a, b⟩ := hc hp'; simp [a, b, hp]
      | true =>
        obtain ⟨w1, e1, hl1, hw1, _⟩ := stepW_ok hw (remove_spec hw hl) (remove_node _ _ _ _ _)
        have hrun : runW c w [(i, .remove x)] = .ok (w1, [.unit], 0) := by simp [runW, e1]
        have hlt : x < w.heap.length := links_lt _ (hw.wf i).links x (by rw [hl]; simp)
        have hnd := (hw.wf i).nodup
        rw [hl] at hnd
        have hnc := List.nodup_cons.mp (List.perm_middle.nodup_iff.mp hnd)
        cases hpol : c.policy with
        | checked =>
          have hfree := hw1.free hpol x (hl1 ▸ hlt) (by
            intro j
            by_cases hj : j = i
            · subst hj; simp only [if_true]; exact hnc.1
            · simp only [if_neg hj]; exact hw.disj i j (fun e => hj e.symm) x (by rw [hl]; simp))
          refine ⟨w1, [x], _, ?_, hw1, hl1, fun h => by simp at h, fun _ => ?_⟩
          · simp [sweepAfter, h1.2, hp, hrun, inc, rd_ok hfree]
          · simp [hp]
        | unchecked =>
          have hkeep : w1.heap[x]? = w.heap[x]? := by
            have e1' := e1
            unfold stepW at e1'
            obtain ⟨⟨⟨h', l'⟩, r', n'⟩, es, e1'⟩ := Outcome.bind_eq_ok.mp e1'
            simp at e1'
            unfold step at es
            obtain ⟨⟨h2, l2⟩, er, es⟩ := Outcome.bind_eq_ok.mp es
            simp at es
            have hwf := hw.wf i
            rw [hl] at hwf
            have := remove_keeps hpol hwf er
            rw [← e1'.1, ← es.1.1]; exact this
          have hinc : inc w1.heap (some x) = .ok B.head? := by
            have h2 := (hw.wf i).links
            rw [hl] at h2
            have h3 := (links_at h2).1
            rw [← hkeep] at h3
            simp [inc, rd_ok h3]
          obtain ⟨w', vis, ls', e, hw', hlen, hu, _⟩ := ih A (ls := fun j => if j = i then A ++ B else ls j) fuel hw1 (by simp) (by simpa using hfu)
          refine ⟨w', x :: vis, ls', ?_, hw', by rw [hlen, hl1], fun _ => ?_, fun h => by simp at h⟩
          · simp [sweepAfter, h1.2, hp, hrun, hinc, e]
          · obtain ⟨a, b⟩ := hu hpol; simp [a, b, hp]

/-- **C120, advancing afterwards.** A loop that removes an element and then advances its iterator, which is then at a node in no list:
with checked nodes, whose links are cleared, it ends with the first element removed, without a panic, whatever follows; with unchecked nodes it
visits every element and removes all that satisfy the predicate. -/
theorem C120_advance_after_remove {ι : Type} [DecidableEq ι] {c : Cfg} {h : Heap} (hf : Fresh c h) {ops : List (ι × Op)}
    {ls : ι → List Nat} {rs : List Out} (hs : SpecRun c h.length (fun _ => []) ops ls rs) (i : ι) (p : Nat → Bool) :
    ∃ w w' vis, runW c (start ι h) ops = .ok (w, rs, 0) ∧
      sweepAfter c (fun x => if p x then [(i, .remove x)] else []) h.length w (w.lists i).head = .ok (w', vis, 0) ∧
      (c.policy = .unchecked → vis = ls i ∧ walk w'.heap h.length (w'.lists i).head = .ok ((ls i).filter fun x => !p x)) ∧
      (c.policy = .checked → ∀ A x B, ls i = A ++ x :: B → (∀ a ∈ A, p a = false) → p x = true →
        vis = A ++ [x] ∧ walk w'.heap h.length (w'.lists i).head = .ok (A ++ B)) := by
  obtain ⟨w, e, hw, hlen⟩ := runW_ok hs (start_ok (ι := ι) hf) rfl
  obtain ⟨w', vis, ls', e', hw', hlen', hu, hc⟩ := after_ok (p := p) (ls i) [] h.length hw rfl (hlen ▸ wf_len (hw.wf i))
  have hwalk : walk w'.heap h.length (w'.lists i).head = .ok (ls' i) := by
    rw [(hw'.wf i).head]
    exact walk_ok _ (hw'.wf i).links (by rw [← hlen, ← hlen']; exact wf_len (hw'.wf i))
  refine ⟨w, w', vis, e, by rw [(hw.wf i).head]; exact e', fun hp => ?_, fun hp A x B hl hA hx => ?_⟩
  · obtain ⟨a, b⟩ := hu hp
    exact ⟨a, by rw [hwalk, b]; simp⟩
  · obtain ⟨a, b⟩ := hc hp
    have t : (ls i).takeWhile (fun x => !p x) = A ∧ (ls i).dropWhile (fun x => !p x) = x :: B := by
      rw [hl]
      clear hl
      induction A with
      | nil => simp [hx]
      | cons y A ih =>
        have h1 := hA y (by simp)
        have h2 := ih (fun a ha => hA a (by simp [ha]))
        simp [h1, h2.1, h2.2]
    rw [t.1, t.2] at a b
    exact ⟨by simpa using a, by rw [hwalk, b]; simp⟩

/-- Three nodes pushed; one iterator goes to the second, the first and the third are popped, a node is inserted
before it, and it is advanced to the end: a history that `C120_iterators_partial` covers. -/
example : ISpecRun (ι := Unit) (κ := Unit) ⟨.checked, .returns⟩ 4 (fun _ => []) (fun _ => none)
    [.list () (.pushBack 0), .list () (.pushBack 1), .list () (.pushBack 2), .begin () (), .inc (),
     .list () .popFront, .list () .popBack, .insertAt () () 3, .deref (), .inc ()]
    (fun _ => [3, 1]) (fun _ => none)
    [.unit, .unit, .unit, .unit, .unit, .node (some 0), .node (some 2), .unit, .node (some 1), .unit] := by
  have ok : ∀ (ls : Unit → List Nat) (n : Nat), n < 4 → n ∉ ls () → NodeOk ⟨.checked, .returns⟩ 4 ls () (.pushBack n) :=
    fun ls n h1 h2 => ⟨fun m hm => by simp [Op.added] at hm; subst hm; exact ⟨h1, fun _ => h2⟩, fun m hm => by simp at hm⟩
  refine .cons (.list (l' := [0]) rfl (ok _ 0 (by decide) (by simp))) ?_
  refine .cons (.list (l' := [0, 1]) rfl (ok _ 1 (by decide) (by simp))) ?_
  refine .cons (.list (l' := [0, 1, 2]) rfl (ok _ 2 (by decide) (by simp))) ?_
  refine .cons (.begin () ()) ?_
  refine .cons (.inc (x := 0) (i := ()) (A := []) (B := [1, 2]) rfl rfl) ?_
  refine .cons (.list (l' := [1, 2]) rfl ⟨fun m hm => by simp [Op.added] at hm, fun m hm => by simp at hm⟩) ?_
  refine .cons (.list (l' := [1]) rfl ⟨fun m hm => by simp [Op.added] at hm, fun m hm => by simp at hm⟩) ?_
  refine .cons (.insertAt (l' := [3, 1]) rfl ⟨fun m hm => by simp [Op.added] at hm; subst hm; simp, fun m hm => by simp at hm⟩) ?_
  refine .cons (.deref (x := 1) (i := ()) rfl (by simp)) ?_
  have := ISpec.inc (c := ⟨.checked, .returns⟩) (size := 4) (ls := fun _ : Unit => [3, 1]) (its := fun _ : Unit => some 1) (k := ())
    (x := 1) (i := ()) (A := [3]) (B := []) rfl rfl
  exact .cons this (.nil _ _)

/-- Two lists: every even node of `[0, 1, 2]` moves to the other. -/
example : ∃ w w' : World Bool, ∃ rs,
    runW ⟨.checked, .returns⟩ (start Bool (List.replicate 3 ⟨none, none⟩))
      [(true, .pushBack 0), (true, .pushBack 1), (true, .pushBack 2)] = .ok (w, rs, 0) ∧
    sweep ⟨.checked, .returns⟩ (fun x => if x % 2 == 0 then [(true, .remove x), (false, .pushBack x)] else []) 3 w
      (w.lists true).head = .ok (w', [0, 1, 2], 0) ∧
    walk w'.heap 3 (w'.lists true).head = .ok [1] ∧ walk w'.heap 3 (w'.lists false).head = .ok [0, 2] :=
  ⟨_, _, _, rfl, rfl, rfl, rfl⟩

end Verif.IList
