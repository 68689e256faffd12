import Verif.IList.Props

/-!
# `insert(end(), n)` under both policies (C18, C22)

With the unchecked policy `insert(end(), n)` leaves `n->next` as it is.  Which nodes that is harmless for can be told from
the history of the sequences alone.
-/

namespace Verif.IList

/-! ## Specification -/

/-- `Tidy` nodes: those that were the last of their list when they left it; nodes that have not been in a list keep the
status they had at first.  `l` is the list before the operation, `l'` after. -/
def tidyAfter (l l' : List Nat) (tidy : Nat → Prop) (n : Nat) : Prop :=
  (n ∈ l ∧ n ∉ l' ∧ l.getLast? = some n) ∨ (¬ (n ∈ l ∧ n ∉ l') ∧ tidy n)

/-- A history in which nodes that are added are in no list, and, with the unchecked policy, those appended to a list that
is not empty with `insert(end(), n)` are tidy. -/
inductive TidyRun {ι : Type} [DecidableEq ι] (c : Cfg) (size : Nat) :
    (ι → List Nat) → (Nat → Prop) → List (ι × Op) → (ι → List Nat) → (Nat → Prop) → List Out → Prop where
  | nil (ls tidy) : TidyRun c size ls tidy [] ls tidy []
  | cons {ls tidy i o l' r os ls' tidy' rs} (h : specStep (ls i) o = some (l', r))
      (hn : ∀ n, o.added = some n → n < size ∧ ∀ j, n ∉ ls j)
      (ht : ∀ n, o = .insert none n → ls i ≠ [] → c.policy = .unchecked → tidy n)
      (hr : TidyRun c size (fun j => if j = i then l' else ls j) (tidyAfter (ls i) l' tidy) os ls' tidy' rs) :
      TidyRun c size ls tidy ((i, o) :: os) ls' tidy' (r :: rs)

/-- The nodes whose `next` is null before first use. -/
def TidyAtFirst (h : Heap) (n : Nat) : Prop := ∃ p, h[n]? = some ⟨p, none⟩

/-! ## Lemmas -/

theorem setPrev_frame {h h' : Heap} {p v : Ptr} (e : setPrev h p v = .ok h') :
    ∀ a, p ≠ some a → h'[a]? = h[a]? := by
  intro a ha
  cases p with
  | none => simp [setPrev] at e
  | some x =>
    rw [setPrev_eq] at e
    split at e
    · cases e; rw [List.getElem?_set_ne (fun h => ha (by rw [h]))]
    · cases e

theorem setNext_frame {h h' : Heap} {p v : Ptr} (e : setNext h p v = .ok h') :
    ∀ a, p ≠ some a → h'[a]? = h[a]? := by
  intro a ha
  cases p with
  | none => simp [setNext] at e
  | some x =>
    rw [setNext_eq] at e
    split at e
    · cases e; rw [List.getElem?_set_ne (fun h => ha (by rw [h]))]
    · cases e

/-- With the unchecked policy a node that leaves a list keeps its links. -/
theorem left_links {c : Cfg} (hp : c.policy = .unchecked) {h h' : Heap} {l l' : Lst} {L L' : List Nat} {o : Op} {r : Out}
    {k : Nat} (w : WF h l L) (w' : WF h' l' L') (hs : specStep L o = some (L', r))
    (e : step c h l o = .ok ((h', l'), r, k)) :
    ∀ a, a ∈ L → a ∉ L' → h'[a]? = h[a]? := by
  intro a ha ha'
  have absd : a ∈ L' → h'[a]? = h[a]? := fun h => absurd h ha'
  cases o with
  | pushFront n => simp [specStep] at hs; exact absd (by rw [← hs.1]; simp [ha])
  | pushBack n => simp [specStep] at hs; exact absd (by rw [← hs.1]; simp [ha])
  | insert it n =>
    cases it with
    | none => simp [specStep] at hs; exact absd (by rw [← hs.1]; simp [ha])
    | some x =>
      simp only [specStep] at hs
      split at hs
      · simp only [Option.some.injEq, Prod.mk.injEq] at hs
        refine absd ?_
        rw [← hs.1]
        have : a ∈ L.takeWhile (· ≠ x) ++ L.dropWhile (· ≠ x) := by rw [List.takeWhile_append_dropWhile]; exact ha
        simp only [List.mem_append, List.mem_cons] at this ⊢
        exact this.imp_right .inr
      · cases hs
  | popFront =>
    cases L with
    | nil => simp [specStep] at hs
    | cons x xs =>
      simp [specStep] at hs
      obtain ⟨rfl, rfl⟩ := hs
      have hx := w.links.1
      have hh := w.head
      simp at hh hx
      have hw' := w'.head
      cases xs with
      | nil =>
        simp at hx
        simp [step, popFront, hh, rd_ok hx, onPop, hp] at e
        rw [e.1.1]
      | cons y ys =>
        simp at hx
        simp [step, popFront, hh, rd_ok hx, onPop, hp, Outcome.bind_eq_ok] at e
        obtain ⟨_, _, _, ⟨_, _, ⟨_, e1, rfl, rfl⟩, ⟨rfl, rfl⟩, rfl⟩, ⟨rfl, rfl⟩, -, -⟩ := e
        exact setPrev_frame e1 a (by rintro h; cases h; exact ha' (by simp))
  | popBack =>
    rcases eq_nil_or_snoc L with rfl | ⟨A, x, rfl⟩
    · simp [specStep] at hs
    · simp [specStep] at hs
      obtain ⟨rfl, rfl⟩ := hs
      have hl := w.links
      rw [links_append] at hl
      have hx := hl.2.1
      have ht := w.tail
      simp at ht hx
      rcases eq_nil_or_snoc A with rfl | ⟨B, y, rfl⟩
      · simp at hx
        simp [step, popBack, ht, rd_ok hx, onPop, hp] at e
        rw [e.1.1]
      · simp at hx
        simp [step, popBack, ht, rd_ok hx, onPop, hp, Outcome.bind_eq_ok] at e
        obtain ⟨_, _, _, ⟨_, _, ⟨_, e1, rfl, rfl⟩, ⟨rfl, rfl⟩, rfl⟩, ⟨rfl, rfl⟩, -, -⟩ := e
        exact setNext_frame e1 a (by rintro h; cases h; exact ha' (by simp))
  | clear =>
    simp [step, clear, hp] at e
    rw [e.1.1]
  | remove n =>
    simp only [specStep] at hs
    split at hs
    · rename_i hx
      simp only [Option.some.injEq, Prod.mk.injEq] at hs
      obtain ⟨rfl, rfl⟩ := hs
      have han : a = n := by
        refine Classical.byContradiction fun hne => ?_
        exact ha' (by rw [List.mem_filter]; exact ⟨ha, by simpa using hne⟩)
      subst han
      obtain ⟨B, e1, e2⟩ := split_at hx
      generalize List.takeWhile (· ≠ a) L = A at *
      subst e1
      have hl := w.links
      rw [links_append] at hl
      have hxn := hl.2.1
      have hnd := w.nodup
      have hp1 : A.getLast?.or none ≠ some a := by
        intro h
        have : a ∈ A := by
          rw [Option.or_none] at h
          exact List.mem_of_getLast? h
        rw [List.nodup_append] at hnd
        exact hnd.2.2 a this a (by simp) rfl
      have hp2 : B.head?.or none ≠ some a := by
        intro h
        have : a ∈ B := by
          rw [Option.or_none] at h
          exact List.mem_of_head? h
        rw [List.nodup_append] at hnd
        exact (List.nodup_cons.mp hnd.2.1).1 this
      generalize A.getLast?.or none = pn at *
      generalize B.head?.or none = nn at *
      simp only [step, remove, rd_ok hxn, onPop, hp, Outcome.ok_bind] at e
      cases pn with
      | none =>
        cases nn with
        | none => simp at e; rw [e.1.1]
        | some y =>
          simp [Outcome.bind_eq_ok] at e
          obtain ⟨_, _, ⟨_, e1, rfl, rfl⟩, ⟨rfl, rfl⟩, -⟩ := e
          exact setPrev_frame e1 a hp2
      | some x =>
        cases nn with
        | none =>
          simp [Outcome.bind_eq_ok] at e
          obtain ⟨_, _, ⟨_, _, ⟨_, e1, rfl, rfl⟩, rfl, rfl⟩, ⟨rfl, rfl⟩, -⟩ := e
          exact setNext_frame e1 a hp1
        | some y =>
          simp [Outcome.bind_eq_ok] at e
          obtain ⟨_, _, ⟨_, _, ⟨_, e1, rfl, rfl⟩, _, e2, rfl, rfl⟩, ⟨rfl, rfl⟩, -⟩ := e
          rw [setPrev_frame e2 a hp2, setNext_frame e1 a hp1]
    · cases hs
  | empty => simp [specStep] at hs; exact absd (by rw [← hs.1]; exact ha)
  | front =>
    cases L with
    | nil => simp [specStep] at hs
    | cons x xs => simp [specStep] at hs; exact absd (by rw [← hs.1]; exact ha)
  | back =>
    rcases eq_nil_or_snoc L with rfl | ⟨A, y, rfl⟩
    · simp [specStep] at hs
    · simp [specStep] at hs; exact absd (by rw [← hs.1]; exact ha)
  | iterate => simp [specStep] at hs; exact absd (by rw [← hs.1]; exact ha)
  | iterateBack => simp [specStep] at hs; exact absd (by rw [← hs.1]; exact ha)

/-- The `next` of a member is null exactly if it is the last. -/
theorem member_next {h : Heap} {l : Lst} {L : List Nat} (w : WF h l L) {a : Nat} (ha : a ∈ L) :
    TidyAtFirst h a ↔ L.getLast? = some a := by
  obtain ⟨A, B, rfl⟩ := List.append_of_mem ha
  have hl := w.links
  rw [links_append] at hl
  have hx := hl.2.1
  unfold TidyAtFirst
  rw [hx]
  cases B with
  | nil => simp
  | cons b B =>
    have hnd := w.nodup
    rw [List.nodup_append] at hnd
    have hne : a ∉ b :: B := (List.nodup_cons.mp hnd.2.1).1
    constructor
    · rintro ⟨p, h⟩; simp at h
    · intro h
      exfalso
      rw [List.getLast?_append, List.getLast?_cons_cons] at h
      have h2 : (b :: B).getLast? = some a := by
        cases e : (b :: B).getLast? with
        | none => simp at e
        | some z => rw [e] at h; simpa using h
      exact hne (List.mem_of_getLast? h2)

/-- The tidy nodes outside the lists are those whose `next` is null. -/
structure WorldTidy {ι : Type} (c : Cfg) (w : World ι) (ls : ι → List Nat) (tidy : Nat → Prop) : Prop where
  ok : WorldOk c w ls
  tidy : c.policy = .unchecked → ∀ a, a < w.heap.length → (∀ j, a ∉ ls j) → (tidy a ↔ TidyAtFirst w.heap a)

theorem stepW_tidy {ι : Type} [DecidableEq ι] {c : Cfg} {w : World ι} {ls : ι → List Nat} {tidy : Nat → Prop}
    (hw : WorldTidy c w ls tidy) {i : ι} {o : Op} {L' : List Nat} {r : Out}
    (hs : specStep (ls i) o = some (L', r))
    (hn : ∀ n, o.added = some n → n < w.heap.length ∧ ∀ j, n ∉ ls j)
    (ht : ∀ n, o = .insert none n → ls i ≠ [] → c.policy = .unchecked → tidy n) :
    ∃ w', stepW c w i o = .ok (w', r, 0) ∧ w'.heap.length = w.heap.length ∧
      WorldTidy c w' (fun j => if j = i then L' else ls j) (tidyAfter (ls i) L' tidy) := by
  obtain ⟨w', e, hl, hok, hfr⟩ := stepW_ok_next hw.ok hs hn (by
    intro n ho hne
    obtain ⟨h1, h2⟩ := hn n (by simp [ho, Op.added])
    cases hp : c.policy with
    | checked => exact ⟨none, hw.ok.free hp n h1 h2⟩
    | unchecked => exact (hw.tidy hp n h1 h2).mp (ht n ho hne hp))
  refine ⟨w', e, hl, hok, fun hp a ha hfree => ?_⟩
  have hi : a ∉ L' := by simpa using hfree i
  by_cases hm : a ∈ ls i
  · have e' : step c w.heap (w.lists i) o = .ok ((w'.heap, w'.lists i), r, 0) := by
      unfold stepW at e
      rw [Outcome.bind_eq_ok] at e
      obtain ⟨⟨⟨h1, l1⟩, r1, p1⟩, e1, e2⟩ := e
      simp at e2
      obtain ⟨rfl, rfl, rfl⟩ := e2
      simp [e1]
    have wi : WF w'.heap (w'.lists i) L' := by simpa using hok.wf i
    have := left_links hp (hw.ok.wf i) wi hs e' a hm hi
    unfold TidyAtFirst tidyAfter
    rw [this]
    have key := member_next (hw.ok.wf i) hm
    unfold TidyAtFirst at key
    rw [key]
    simp [hm, hi]
  · have hadd : o.added ≠ some a := fun h => hi (specStep_added hs h)
    unfold TidyAtFirst tidyAfter
    rw [hfr a hm hadd]
    have key := hw.tidy hp a (by rw [← hl]; exact ha) (by
      intro j
      by_cases hj : j = i
      · subst hj; exact hm
      · simpa [hj] using hfree j)
    unfold TidyAtFirst at key
    simp [hm, key]

theorem runW_tidy {ι : Type} [DecidableEq ι] {c : Cfg} {size : Nat} {ls ls' : ι → List Nat} {tidy tidy' : Nat → Prop}
    {ops : List (ι × Op)} {rs : List Out} (hs : TidyRun c size ls tidy ops ls' tidy' rs) :
    ∀ {w : World ι}, WorldTidy c w ls tidy → w.heap.length = size →
      ∃ w', runW c w ops = .ok (w', rs, 0) ∧ WorldTidy c w' ls' tidy' ∧ w'.heap.length = size := by
  induction hs with
  | nil ls tidy => intro w hw hl; exact ⟨w, rfl, hw, hl⟩
  | cons h hn ht hr ih =>
    intro w hw hl
    subst hl
    obtain ⟨w1, e1, hl1, hw1⟩ := stepW_tidy hw h hn ht
    obtain ⟨w2, e2, hw2, hl2⟩ := ih hw1 hl1
    exact ⟨w2, by simp [runW, e1, e2], hw2, hl2⟩

theorem start_tidy {ι : Type} {c : Cfg} {h : Heap} (hf : Fresh c h) :
    WorldTidy c (start ι h) (fun _ => []) (TidyAtFirst h) :=
  ⟨start_ok hf, fun _ _ _ _ => Iff.rfl⟩

/-! ## Theorems -/

/-- **C18 with `insert(end(), n)` under both policies.** Every history, over any number of lists and nodes, in which nodes
that are added are in no list, and in which, with the unchecked policy, a node given to `insert(end(), n)` of a list that is
not empty was the last of its list when it left it (or has a null `next` and was in none): no undefined behaviour and no
panic, every call returns what the sequences say, and at the end every list is its sequence in both directions. -/
theorem C18_insert_end_histories {ι : Type} [DecidableEq ι] {c : Cfg} {h : Heap} (hf : Fresh c h)
    {ops : List (ι × Op)} {ls' : ι → List Nat} {tidy' : Nat → Prop} {rs : List Out}
    (hs : TidyRun c h.length (fun _ => []) (TidyAtFirst h) ops ls' tidy' rs) :
    ∃ w', runW c (start ι h) ops = .ok (w', rs, 0) ∧
      ∀ i, walk w'.heap w'.heap.length (w'.lists i).head = .ok (ls' i) ∧
        walkBack w'.heap w'.heap.length (w'.lists i).tail = .ok (ls' i).reverse ∧
        (w'.lists i).head = (ls' i).head? ∧ (w'.lists i).tail = (ls' i).getLast? := by
  obtain ⟨w', e, hw, _⟩ := runW_tidy hs (start_tidy (ι := ι) hf) rfl
  refine ⟨w', e, fun i => ?_⟩
  have w := hw.ok.wf i
  refine ⟨by rw [w.head]; exact walk_ok _ w.links (wf_len w), ?_, w.head, w.tail⟩
  rw [w.tail, List.getLast?_eq_head?_reverse]
  exact walkBack_ok (ls' i).reverse (q := none) (by simpa using w.links) (by simpa using wf_len w)

/-- Iteration along links that go on after `L`. -/
theorem walk_beyond {h : Heap} (L : List Nat) : ∀ {p : Ptr} {q : Nat} {fuel : Nat} {M : List Nat},
    Links h p L (some q) → L ≠ [] → walk h fuel L.head? = .ok M → ∃ R, M = L ++ q :: R := by
  induction L with
  | nil => intro p q fuel M _ h; exact absurd rfl h
  | cons a L ih =>
    intro p q fuel M hl _ e
    cases fuel with
    | zero => simp [walk] at e
    | succ fuel =>
      simp only [List.head?_cons, walk, rd_ok hl.1, Outcome.ok_bind, Outcome.bind_eq_ok] at e
      obtain ⟨M', e1, e2⟩ := e
      cases e2
      cases L with
      | nil =>
        simp only [List.head?_nil, Option.none_or] at e1
        cases fuel with
        | zero => simp [walk] at e1
        | succ fuel =>
          simp only [walk, Outcome.bind_eq_ok] at e1
          obtain ⟨nd, _, R, _, e3⟩ := e1
          cases e3
          exact ⟨R, rfl⟩
      | cons b L =>
        obtain ⟨R, rfl⟩ := ih hl.2 (by simp) (by simpa using e1)
        exact ⟨R, rfl⟩

/-- **C22, `insert(end(), n)`, exactly.** After any such history, with the unchecked policy and a list that is not empty,
`insert(end(), n)` of a node in no list appends it if the node was the last of its list when it left it (or had a null `next`
from the beginning); otherwise iteration goes on after `n` to the node that `n` was followed by then: no iteration, however
long, ends with `n`. -/
theorem C22_insert_end_exact {ι : Type} [DecidableEq ι] {c : Cfg} (hp : c.policy = .unchecked) {h : Heap} (hf : Fresh c h)
    {ops : List (ι × Op)} {ls : ι → List Nat} {tidy : Nat → Prop} {rs : List Out}
    (hs : TidyRun c h.length (fun _ => []) (TidyAtFirst h) ops ls tidy rs) {i : ι} {n : Nat}
    (hn : n < h.length) (hfree : ∀ j, n ∉ ls j) (hne : ls i ≠ []) :
    ∃ w w', runW c (start ι h) ops = .ok (w, rs, 0) ∧ stepW c w i (.insert none n) = .ok (w', .unit, 0) ∧
      (tidy n → walk w'.heap h.length (w'.lists i).head = .ok (ls i ++ [n])) ∧
      (¬ tidy n → ∃ q, ∀ fuel M, walk w'.heap fuel (w'.lists i).head = .ok M → ∃ R, M = ls i ++ n :: q :: R) := by
  obtain ⟨w, e, hw, hl⟩ := runW_tidy hs (start_tidy (ι := ι) hf) rfl
  have hnl : n < w.heap.length := by rw [hl]; exact hn
  have key := hw.tidy hp n hnl hfree
  by_cases ht : tidy n
  · obtain ⟨w', e', hl', hw'⟩ := stepW_tidy hw (i := i) (o := .insert none n) (L' := ls i ++ [n]) (r := .unit) rfl
      (fun m hm => by simp only [Op.added, Option.some.injEq] at hm; subst hm; exact ⟨hnl, hfree⟩)
      (fun m hm _ _ => by cases hm; exact ht)
    refine ⟨w, w', e, e', fun _ => ?_, fun h => absurd ht h⟩
    have wi := hw'.ok.wf i
    simp only [↓reduceIte] at wi
    have hlen := wf_len wi
    rw [hl', hl] at hlen
    rw [wi.head]
    exact walk_ok _ wi.links hlen
  · obtain ⟨nd, hnd⟩ : ∃ nd, w.heap[n]? = some nd := ⟨_, List.getElem?_eq_getElem hnl⟩
    obtain ⟨pv, nx⟩ := nd
    obtain ⟨q, rfl⟩ : ∃ q, nx = some q := by
      cases nx with
      | none => exact absurd (key.mpr ⟨pv, hnd⟩) ht
      | some q => exact ⟨q, rfl⟩
    obtain ⟨A, y, hA⟩ : ∃ A y, ls i = A ++ [y] := (eq_nil_or_snoc (ls i)).resolve_left hne
    have wi := hw.ok.wf i
    have hni := hfree i
    rw [hA] at wi hni
    obtain ⟨hnodup, hh, htl, hlk⟩ := wi
    simp only [List.mem_append, List.mem_singleton, not_or] at hni
    rw [links_append] at hlk
    have hy := hlk.2.1
    simp at hy htl
    have hny : ¬ n = y := hni.2
    have hyn : ¬ y = n := fun e => hni.2 e.symm
    have hhn : ¬ (w.lists i).head = none := by rw [hh]; simp
    obtain ⟨hyl, hgy⟩ := List.getElem?_eq_some_iff.mp hy
    obtain ⟨_, hgn⟩ := List.getElem?_eq_some_iff.mp hnd
    refine ⟨w, ⟨(w.heap.set n ⟨some y, some q⟩).set y ⟨A.getLast?, some n⟩,
      fun j => if j = i then ⟨(w.lists i).head, some n⟩ else w.lists j⟩, e, ?_, fun h => absurd h ht, fun _ => ⟨q, ?_⟩⟩
    · simp [stepW, step, insert, hhn, check, hp, uncheckedInsert, htl, setNext_eq, setPrev_eq, rd_eq, hgn, hnl, hgy,
        hyl, hny]
    · intro fuel M hM
      simp only [↓reduceIte] at hM
      have hlinks : Links ((w.heap.set n ⟨some y, some q⟩).set y ⟨A.getLast?, some n⟩) none ((A ++ [y]) ++ [n]) (some q) := by
        rw [List.append_assoc, links_append]
        rw [List.nodup_append] at hnodup
        refine ⟨links_frame A ?_ hlk.1, by simp [hyl], by simp [hyn, hnl], trivial⟩
        intro a ha
        have h1 : n ≠ a := fun e => hni.1 (e ▸ ha)
        have h2 : y ≠ a := fun e => hnodup.2.2 a ha y (by simp) e.symm
        rw [List.getElem?_set_ne h2, List.getElem?_set_ne h1]
      have hd : (w.lists i).head = ((A ++ [y]) ++ [n]).head? := by rw [hh]; cases A <;> simp
      rw [hd] at hM
      obtain ⟨R, hR⟩ := walk_beyond _ hlinks (by simp) hM
      exact ⟨R, by rw [hR, hA]; simp⟩

/-- A history under the unchecked policy with stale links: node 2 is appended with `insert(end(), ...)`, leaves as the
last, and is appended again so. -/
example : ∃ ls tidy rs, TidyRun (ι := Unit) ⟨.unchecked, .returns⟩ 3 (fun _ => [])
    (TidyAtFirst [⟨some 2, some 1⟩, ⟨none, some 7⟩, ⟨some 0, none⟩])
    [((), .pushBack 0), ((), .insert none 2), ((), .popBack), ((), .pushBack 1), ((), .insert none 2), ((), .popFront)]
    ls tidy rs ∧ ls () = [1, 2] ∧ tidy 2 ∧ ¬ tidy 0 := by
  refine ⟨_, _, _, .cons (l' := [0]) rfl (by simp [Op.added]) (by simp) (.cons (l' := [0, 2]) rfl (by simp [Op.added])
    (by simp [TidyAtFirst, tidyAfter]) (.cons (l' := [0]) rfl (by simp [Op.added]) (by simp)
    (.cons (l' := [0, 1]) rfl (by simp [Op.added]) (by simp) (.cons (l' := [0, 1, 2]) rfl (by simp [Op.added])
    (by simp [TidyAtFirst, tidyAfter]) (.cons (l' := [1, 2]) rfl (by simp [Op.added]) (by simp) (.nil _ _)))))), rfl, ?_, ?_⟩
  · simp [tidyAfter, TidyAtFirst]
  · simp [tidyAfter, TidyAtFirst]

end Verif.IList
