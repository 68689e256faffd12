import Verif.FList.Iterate
import Verif.FList.Props

/-!
# Iterators of `intrusive_forward_list` while the lists change (C120)
-/

namespace Verif.FList

open IList (Ptr Heap rd)

/-- What an operation does to the sequences and the positions (`none`: the end), and what it returns.  An iterator may be advanced or
dereferenced while the node it is at is in some list. -/
inductive ISpec {ι κ : Type} [DecidableEq ι] [DecidableEq κ] (size : Nat) :
    (ι → List Nat) → (κ → Option Nat) → IOp ι κ → (ι → List Nat) → (κ → Option Nat) → Out → Prop where
  | list {ls its i o l' r} (h : specStep (ls i) o = some (l', r)) (hn : NodeOk size ls o) :
      ISpec size ls its (.list i o) (fun j => if j = i then l' else ls j) its r
  | begin {ls its} (k i) : ISpec size ls its (.begin k i) ls (fun m => if m = k then (ls i).head? else its m) .unit
  | endOf {ls its} (k) : ISpec size ls its (.endOf k) ls (fun m => if m = k then none else its m) .unit
  | copy {ls its} (k k') : ISpec size ls its (.copy k k') ls (fun m => if m = k' then its k else its m) .unit
  | inc {ls its k x i A B} (hk : its k = some x) (hl : ls i = A ++ x :: B) :
      ISpec size ls its (.inc k) ls (fun m => if m = k then B.head? else its m) .unit
  | postInc {ls its k k' x i A B} (hk : its k = some x) (hl : ls i = A ++ x :: B) :
      ISpec size ls its (.postInc k k') ls (fun m => if m = k' then some x else if m = k then B.head? else its m) .unit
  | deref {ls its k x i} (hk : its k = some x) (hl : x ∈ ls i) : ISpec size ls its (.deref k) ls its (.node (some x))
  | eq {ls its} (k k') : ISpec size ls its (.eq k k') ls its (.bool (decide (its k = its k')))

/-- A history of such operations. -/
inductive ISpecRun {ι κ : Type} [DecidableEq ι] [DecidableEq κ] (size : Nat) :
    (ι → List Nat) → (κ → Option Nat) → List (IOp ι κ) → (ι → List Nat) → (κ → Option Nat) → List Out → Prop where
  | nil (ls its) : ISpecRun size ls its [] ls its []
  | cons {ls its o ls1 its1 r os ls2 its2 rs} (h : ISpec size ls its o ls1 its1 r)
      (hr : ISpecRun size ls1 its1 os ls2 its2 rs) : ISpecRun size ls its (o :: os) ls2 its2 (r :: rs)

theorem inc_at {ι : Type} {c : Cfg} {w : World ι} {ls : ι → List Nat} (hw : WorldOk c w ls) {i : ι} {A B : List Nat} {x : Nat}
    (hl : ls i = A ++ x :: B) : inc w.heap (some x) = .ok B.head? ∧ deref w.heap (some x) = .ok (some x) := by
  have h1 := (hw.wf i).links
  rw [hl, links_append] at h1
  obtain ⟨p, h2⟩ := h1.2.1
  simp [inc, deref, rd, arrGet_ok.mpr h2]

theorem stepI_ok {ι κ : Type} [DecidableEq ι] [DecidableEq κ] {c : Cfg} {p : Prog ι κ} {ls ls' : ι → List Nat}
    {its' : κ → Option Nat} {o : IOp ι κ} {r : Out} (hw : WorldOk c p.world ls)
    (hs : ISpec p.world.heap.length ls p.its o ls' its' r) :
    ∃ w', stepI c p o = .ok (⟨w', its'⟩, r, 0) ∧ WorldOk c w' ls' ∧ w'.heap.length = p.world.heap.length := by
  cases hs with
  | list h hn =>
    obtain ⟨w', e, hlen, hw', _⟩ := stepW_ok hw h hn
    exact ⟨w', by simp [stepI, e], hw', hlen⟩
  | begin k i =>
    refine ⟨p.world, ?_, hw, rfl⟩
    simp only [stepI, (hw.wf i).head]
    rfl
  | endOf k => exact ⟨p.world, rfl, hw, rfl⟩
  | copy k k' => exact ⟨p.world, rfl, hw, rfl⟩
  | inc hk hl =>
    refine ⟨p.world, ?_, hw, rfl⟩
    simp only [stepI, hk, (inc_at hw hl).1, Outcome.ok_bind]
    rfl
  | postInc hk hl =>
    refine ⟨p.world, ?_, hw, rfl⟩
    simp only [stepI, postInc, hk, (inc_at hw hl).1, Outcome.ok_bind]
    rfl
  | deref hk hl =>
    obtain ⟨A, B, e⟩ := List.append_of_mem hl
    refine ⟨p.world, ?_, hw, rfl⟩
    simp only [stepI, hk, (inc_at hw e).2, Outcome.ok_bind]
    rfl
  | eq k k' => exact ⟨p.world, rfl, hw, rfl⟩

theorem runI_ok {ι κ : Type} [DecidableEq ι] [DecidableEq κ] {c : Cfg} {size : Nat} {ls ls' : ι → List Nat}
    {its its' : κ → Option Nat} {os : List (IOp ι κ)} {rs : List Out} (hs : ISpecRun size ls its os ls' its' rs) :
    ∀ {w : World ι}, WorldOk c w ls → w.heap.length = size →
      ∃ w', runI c ⟨w, its⟩ os = .ok (⟨w', its'⟩, rs, 0) ∧ WorldOk c w' ls' ∧ w'.heap.length = size := by
  induction hs with
  | nil ls its => intro w hw hl; exact ⟨w, rfl, hw, hl⟩
  | cons h hr ih =>
    intro w hw hl
    subst hl
    obtain ⟨w1, e1, hw1, hl1⟩ := stepI_ok (p := ⟨w, _⟩) hw h
    obtain ⟨w2, e2, hw2, hl2⟩ := ih hw1 hl1
    exact ⟨w2, by simp [runI, e1, e2], hw2, hl2⟩

/-- **C120, forward lists.** In every history of operations on any number of forward lists and iterators, in which an iterator is
advanced or dereferenced only while its node is in a list, every operation returns what the sequences and positions say; at
the end, iterating from an iterator gives exactly the elements from its node on. -/
theorem C120_forward_iterators {ι κ : Type} [DecidableEq ι] [DecidableEq κ] {c : Cfg} {h : Heap} (hf : Fresh c h)
    {os : List (IOp ι κ)} {ls : ι → List Nat} {its : κ → Option Nat} {rs : List Out}
    (hs : ISpecRun h.length (fun _ => []) (fun _ => none) os ls its rs) :
    ∃ p : Prog ι κ, runI c ⟨start ι h, fun _ => none⟩ os = .ok (p, rs, 0) ∧ p.its = its ∧
      (∀ i, walk p.world.heap h.length (p.world.lists i).head = .ok (ls i)) ∧
      ∀ k x i A B, its k = some x → ls i = A ++ x :: B → walk p.world.heap h.length (p.its k) = .ok (x :: B) := by
  obtain ⟨w, e, hw, hlen⟩ := runI_ok hs (start_ok (ι := ι) hf) rfl
  refine ⟨⟨w, its⟩, e, rfl, fun i => ?_, fun k x i A B hk hl => ?_⟩
  · rw [(hw.wf i).head]
    exact walk_ok _ (hw.wf i).links (hlen ▸ wf_len (hw.wf i))
  · have h1 := hw.wf i
    have h2 := wf_len h1
    have h3 := h1.links
    rw [hl] at h2 h3
    rw [links_append] at h3
    simp at h2
    show walk w.heap h.length (its k) = _
    rw [hk]
    exact walk_ok (x :: B) h3.2 (by simp; omega)

/-- Three nodes pushed; an iterator goes to the second, the first is popped, another is pushed at the back, and the iterator is
advanced twice. -/
example : ISpecRun (ι := Unit) (κ := Unit) 4 (fun _ => []) (fun _ => none)
    [.list () (.pushBack 0), .list () (.pushBack 1), .begin () (), .inc (),
     .list () .popFront, .list () (.pushBack 2), .deref (), .inc ()]
    (fun _ => [1, 2]) (fun _ => some 2)
    [.unit, .unit, .unit, .unit, .node (some 0), .unit, .node (some 1), .unit] := by
  have ok : ∀ (ls : Unit → List Nat) (n : Nat), n < 4 → n ∉ ls () → NodeOk 4 ls (.pushBack n) :=
    fun ls n h1 h2 m hm => by simp [Op.added] at hm; subst hm; exact ⟨h1, fun _ => h2⟩
  refine .cons (.list (l' := [0]) rfl (ok _ 0 (by decide) (by simp))) ?_
  refine .cons (.list (l' := [0, 1]) rfl (ok _ 1 (by decide) (by simp))) ?_
  refine .cons (.begin () ()) ?_
  refine .cons (.inc (x := 0) (i := ()) (A := []) (B := [1]) rfl rfl) ?_
  refine .cons (.list (l' := [1]) rfl (fun m hm => by simp [Op.added] at hm)) ?_
  refine .cons (.list (l' := [1, 2]) rfl (ok _ 2 (by decide) (by simp))) ?_
  refine .cons (.deref (x := 1) (i := ()) rfl (by simp)) ?_
  have := ISpec.inc (size := 4) (ls := fun _ : Unit => [1, 2]) (its := fun _ : Unit => some 1) (k := ())
    (x := 1) (i := ()) (A := []) (B := [2]) rfl rfl
  exact .cons this (.nil _ _)

end Verif.FList
