import Verif.IList.PropsIterate
import Verif.IList.PropsTail

/-!
# Iterators in histories with `insert(end(), n)` under both policies (C120)
-/

namespace Verif.IList

/-! ## Specification -/

/-- The operations of a program with iterators that change a list, and how. -/
inductive Edits {ι κ : Type} (its : κ → Option Nat) : IOp ι κ → ι → Op → Prop where
  | list (i o) : Edits its (.list i o) i o
  | insertAt (i k n) : Edits its (.insertAt i k n) i (.insert (its k) n)
  | removeAt (i k x) (h : its k = some x) : Edits its (.removeAt i k) i (.remove x)

/-- What an operation does to the sequences, the positions and the tidy nodes, and what it returns: changes of a list as in `TidyRun`, all
else as in `ISpec`.  `insert(end(), n)` may be called with the end as an iterator object. -/
inductive ITidy {ι κ : Type} [DecidableEq ι] [DecidableEq κ] (c : Cfg) (size : Nat) :
    (ι → List Nat) → (κ → Option Nat) → (Nat → Prop) → IOp ι κ →
    (ι → List Nat) → (κ → Option Nat) → (Nat → Prop) → Out → Prop where
  | edit {ls its tidy op i o l' r} (hop : Edits its op i o) (h : specStep (ls i) o = some (l', r))
      (hn : ∀ n, o.added = some n → n < size ∧ ∀ j, n ∉ ls j)
      (ht : ∀ n, o = .insert none n → ls i ≠ [] → c.policy = .unchecked → tidy n) :
      ITidy c size ls its tidy op (fun j => if j = i then l' else ls j) its (tidyAfter (ls i) l' tidy) r
  | look {ls its tidy op its' r} (hop : ∀ i o, ¬ Edits its op i o) (h : ISpec c size ls its op ls its' r) :
      ITidy c size ls its tidy op ls its' tidy r

/-- A history of such operations. -/
inductive ITidyRun {ι κ : Type} [DecidableEq ι] [DecidableEq κ] (c : Cfg) (size : Nat) :
    (ι → List Nat) → (κ → Option Nat) → (Nat → Prop) → List (IOp ι κ) →
    (ι → List Nat) → (κ → Option Nat) → List Out → Prop where
  | nil (ls its tidy) : ITidyRun c size ls its tidy [] ls its []
  | cons {ls its tidy o ls1 its1 tidy1 r os ls2 its2 rs} (h : ITidy c size ls its tidy o ls1 its1 tidy1 r)
      (hr : ITidyRun c size ls1 its1 tidy1 os ls2 its2 rs) : ITidyRun c size ls its tidy (o :: os) ls2 its2 (r :: rs)

/-- A loop that advances before it acts, as `Sweep`, with bodies that may append tidy nodes with `insert(end(), n)`. -/
inductive TidySweep {ι : Type} [DecidableEq ι] (c : Cfg) (size : Nat) (i : ι) (body : Nat → List (ι × Op)) :
    (ι → List Nat) → (Nat → Prop) → Option Nat → List Nat → (ι → List Nat) → Prop where
  | done (ls tidy) : TidySweep c size i body ls tidy none [] ls
  | turn {ls tidy x A B ls1 tidy1 rs vis ls'} (hl : ls i = A ++ x :: B) (hb : TidyRun c size ls tidy (body x) ls1 tidy1 rs)
      (hr : TidySweep c size i body ls1 tidy1 B.head? vis ls') : TidySweep c size i body ls tidy (some x) (x :: vis) ls'

/-! ## Lemmas -/

theorem ispec_look {ι κ : Type} [DecidableEq ι] [DecidableEq κ] {c : Cfg} {p : Prog ι κ} {ls : ι → List Nat}
    {its' : κ → Option Nat} {o : IOp ι κ} {r : Out} (hw : WorldOk c p.world ls) (hop : ∀ i q, ¬ Edits p.its o i q)
    (hs : ISpec c p.world.heap.length ls p.its o ls its' r) : stepI c p o = .ok (⟨p.world, its'⟩, r, 0) := by
  obtain ⟨w', e, -, -⟩ := stepI_ok hw hs
  cases o with
  | list i o => exact absurd (.list i o) (hop _ _)
  | insertAt i k n => exact absurd (.insertAt i k n) (hop _ _)
  | removeAt i k =>
    cases hk : p.its k with
    | none => simp [stepI, hk, deref, refTo, rd] at e
    | some x => exact absurd (.removeAt i k x hk) (hop _ _)
  | begin | endOf | copy | eq => rw [e]; cases e; rfl
  | inc | deref | postInc =>
    rw [e]
    simp only [stepI, Outcome.bind_eq_ok] at e
    obtain ⟨_, -, e⟩ := e
    cases e; rfl

theorem stepI_tidy {ι κ : Type} [DecidableEq ι] [DecidableEq κ] {c : Cfg} {p : Prog ι κ} {ls ls' : ι → List Nat}
    {its' : κ → Option Nat} {tidy tidy' : Nat → Prop} {o : IOp ι κ} {r : Out} (hw : WorldTidy c p.world ls tidy)
    (hs : ITidy c p.world.heap.length ls p.its tidy o ls' its' tidy' r) :
    ∃ w', stepI c p o = .ok (⟨w', its'⟩, r, 0) ∧ WorldTidy c w' ls' tidy' ∧ w'.heap.length = p.world.heap.length := by
  cases hs with
  | look hop h => exact ⟨p.world, ispec_look hw.ok hop h, hw, rfl⟩
  | edit hop h hn ht =>
    rename_i i q l'
    obtain ⟨w', e, hl, hw'⟩ := stepW_tidy hw h hn ht
    refine ⟨w', ?_, hw', hl⟩
    cases hop with
    | list => simp [stepI, e]
    | insertAt k n => simp [stepI, e]
    | removeAt _ k x hk =>
      have hm : x ∈ ls i := by
        simp only [specStep] at h
        split at h
        · assumption
        · cases h
      obtain ⟨A, B, hAB⟩ := List.append_of_mem hm
      simp [stepI, hk, (inc_at hw.ok hAB).2, e]

theorem runI_tidy {ι κ : Type} [DecidableEq ι] [DecidableEq κ] {c : Cfg} {size : Nat} {ls ls' : ι → List Nat}
    {its its' : κ → Option Nat} {tidy : Nat → Prop} {os : List (IOp ι κ)} {rs : List Out}
    (hs : ITidyRun c size ls its tidy os ls' its' rs) : ∀ {w : World ι}, WorldTidy c w ls tidy → w.heap.length = size →
      ∃ w', runI c ⟨w, its⟩ os = .ok (⟨w', its'⟩, rs, 0) ∧ WorldOk c w' ls' ∧ w'.heap.length = size := by
  induction hs with
  | nil ls its => intro w hw hl; exact ⟨w, rfl, hw.ok, hl⟩
  | cons h hr ih =>
    intro w hw hl
    subst hl
    obtain ⟨w1, e1, hw1, hl1⟩ := stepI_tidy (p := ⟨w, _⟩) hw h
    obtain ⟨w2, e2, hw2, hl2⟩ := ih hw1 hl1
    exact ⟨w2, by simp [runI, e1, e2], hw2, hl2⟩

theorem sweep_tidy {ι : Type} [DecidableEq ι] {c : Cfg} {size : Nat} {i : ι} {body : Nat → List (ι × Op)}
    {ls ls' : ι → List Nat} {tidy : Nat → Prop} {it : Option Nat} {vis : List Nat} (hs : TidySweep c size i body ls tidy it vis ls') :
    ∀ {w : World ι} {fuel : Nat}, WorldTidy c w ls tidy → w.heap.length = size → vis.length ≤ fuel →
      ∃ w', sweep c body fuel w it = .ok (w', vis, 0) ∧ WorldOk c w' ls' ∧ w'.heap.length = size := by
  induction hs with
  | done ls => intro w fuel hw hl _; exact ⟨w, by cases fuel <;> rfl, hw.ok, hl⟩
  | turn hl hb hr ih =>
    intro w fuel hw hsz hfu
    cases fuel with
    | zero => simp at hfu
    | succ fuel =>
      have h1 := inc_at hw.ok hl
      obtain ⟨w1, e1, hw1, hl1⟩ := runW_tidy hb hw hsz
      obtain ⟨w2, e2, hw2, hl2⟩ := ih hw1 hl1 (by simpa using hfu)
      exact ⟨w2, by simp [sweep, postInc, h1.1, h1.2, e1, e2], hw2, hl2⟩

/-- Histories without `insert(end(), n)` under the unchecked policy do not depend on which nodes are tidy. -/
theorem specRun_tidy {ι : Type} [DecidableEq ι] {c : Cfg} {size : Nat} {ls ls' : ι → List Nat} {ops : List (ι × Op)} {rs : List Out}
    (hs : SpecRun c size ls ops ls' rs) : ∀ tidy, ∃ tidy', TidyRun c size ls tidy ops ls' tidy' rs := by
  induction hs with
  | nil ls => intro tidy; exact ⟨tidy, .nil _ _⟩
  | cons h hn hr ih =>
    intro tidy
    obtain ⟨tidy', hr'⟩ := ih _
    refine ⟨tidy', .cons h hn.1 (fun n ho hne hp => ?_) hr'⟩
    have := hn.2 n ho hne
    rw [hp] at this; cases this

theorem sweep_of_spec {ι : Type} [DecidableEq ι] {c : Cfg} {size : Nat} {i : ι} {body : Nat → List (ι × Op)}
    {ls ls' : ι → List Nat} {it : Option Nat} {vis : List Nat} (hs : Sweep c size i body ls it vis ls') :
    ∀ tidy, TidySweep c size i body ls tidy it vis ls' := by
  induction hs with
  | done ls => exact fun tidy => .done _ _
  | turn hl hb hr ih =>
    intro tidy
    obtain ⟨tidy', hb'⟩ := specRun_tidy hb tidy
    exact .turn hl hb' (ih tidy')

/-! ## Theorems -/

/-- **C120, iterators, with `insert(end(), n)` under both policies.** As `C120_iterators_partial`, for all histories in which, with the
unchecked policy, the nodes that are appended with `insert(end(), n)` to lists that are not empty were the last of their lists
when they left them, or have a null `next` and were in none. (For the others see `C22_insert_end_exact`.) -/
theorem C120_iterators_insert_end {ι κ : Type} [DecidableEq ι] [DecidableEq κ] {c : Cfg} {h : Heap} (hf : Fresh c h)
    {os : List (IOp ι κ)} {ls : ι → List Nat} {its : κ → Option Nat} {rs : List Out}
    (hs : ITidyRun c h.length (fun _ => []) (fun _ => none) (TidyAtFirst h) os ls its rs) :
    ∃ p : Prog ι κ, runI c ⟨start ι h, fun _ => none⟩ os = .ok (p, rs, 0) ∧ p.its = its ∧
      (∀ i, walk p.world.heap h.length (p.world.lists i).head = .ok (ls i)) ∧
      ∀ k x i A B, its k = some x → ls i = A ++ x :: B → walk p.world.heap h.length (p.its k) = .ok (x :: B) := by
  obtain ⟨w, e, hw, hlen⟩ := runI_tidy hs (start_tidy (ι := ι) hf) rfl
  refine ⟨⟨w, its⟩, e, rfl, fun i => ?_, fun k x i A B hk hl => ?_⟩
  · rw [(hw.wf i).head]
    exact walk_ok _ (hw.wf i).links (hlen ▸ wf_len (hw.wf i))
  · have h1 := hw.wf i
    have h2 := wf_len h1
    have h3 := h1.links
    rw [hl] at h2 h3
    rw [links_append] at h3
    simp at h2
    show walk w.heap h.length (its k) = _
    rw [hk]
    exact walk_ok (x :: B) (p := A.getLast?.or none) h3.2 (by simp; omega)

/-- **C120, loops, with `insert(end(), n)` under both policies**, before the loop and in its body. -/
theorem C120_loop_insert_end {ι : Type} [DecidableEq ι] {c : Cfg} {h : Heap} (hf : Fresh c h) {ops : List (ι × Op)}
    {ls ls' : ι → List Nat} {tidy : Nat → Prop} {rs : List Out}
    (hs : TidyRun c h.length (fun _ => []) (TidyAtFirst h) ops ls tidy rs) {i : ι}
    {body : Nat → List (ι × Op)} {vis : List Nat} (hb : TidySweep c h.length i body ls tidy (ls i).head? vis ls') (fuel : Nat)
    (hfu : vis.length ≤ fuel) :
    ∃ w w', runW c (start ι h) ops = .ok (w, rs, 0) ∧ sweep c body fuel w (w.lists i).head = .ok (w', vis, 0) ∧
      ∀ j, walk w'.heap h.length (w'.lists j).head = .ok (ls' j) := by
  obtain ⟨w, e, hw, hlen⟩ := runW_tidy hs (start_tidy (ι := ι) hf) rfl
  obtain ⟨w', e', hw', hlen'⟩ := sweep_tidy hb (fuel := fuel) hw hlen hfu
  refine ⟨w, w', e, by rw [(hw.ok.wf i).head]; exact e', fun j => ?_⟩
  rw [(hw'.wf j).head]
  exact walk_ok _ (hw'.wf j).links (hlen' ▸ wf_len (hw'.wf j))

/-- **C120, erasing and moving in a loop, after histories with `insert(end(), n)`.** Every element is visited once, in order; the loop that
removes leaves exactly the others, the loop that moves to another list appends the elements there in order. -/
theorem C120_erase_move_insert_end {ι : Type} [DecidableEq ι] {c : Cfg} {h : Heap} (hf : Fresh c h) {ops : List (ι × Op)}
    {ls : ι → List Nat} {tidy : Nat → Prop} {rs : List Out}
    (hs : TidyRun c h.length (fun _ => []) (TidyAtFirst h) ops ls tidy rs) (i : ι) (p : Nat → Bool) :
    ∃ w, runW c (start ι h) ops = .ok (w, rs, 0) ∧
      (∃ w', sweep c (fun x => if p x then [(i, .remove x)] else []) h.length w (w.lists i).head = .ok (w', ls i, 0) ∧
        walk w'.heap h.length (w'.lists i).head = .ok ((ls i).filter fun x => !p x) ∧
        ∀ j, j ≠ i → walk w'.heap h.length (w'.lists j).head = .ok (ls j)) ∧
      ∀ j, i ≠ j → ∃ w',
        sweep c (fun x => if p x then [(i, .remove x), (j, .pushBack x)] else []) h.length w (w.lists i).head = .ok (w', ls i, 0) ∧
        walk w'.heap h.length (w'.lists i).head = .ok ((ls i).filter fun x => !p x) ∧
        walk w'.heap h.length (w'.lists j).head = .ok (ls j ++ (ls i).filter p) := by
  obtain ⟨w0, e0, hw0, hlen0⟩ := runW_tidy hs (start_tidy (ι := ι) hf) rfl
  have hnd := (hw0.ok.wf i).nodup
  have hlen := wf_len (hw0.ok.wf i)
  rw [hlen0] at hlen
  refine ⟨w0, e0, ?_, fun j hij => ?_⟩
  · obtain ⟨w, w', e1, e2, h3⟩ := C120_loop_insert_end hf hs
      (sweep_of_spec (erase_sweep c h.length i p (ls i) [] ls (by simpa using hnd) rfl) tidy) h.length hlen
    rw [e0] at e1; cases e1
    exact ⟨w', e2, by simpa using h3 i, fun j hj => by simpa [hj] using h3 j⟩
  · obtain ⟨w, w', e1, e2, h3⟩ := C120_loop_insert_end hf hs
      (sweep_of_spec (move_sweep c h.length hij p (ls i) [] ls (by simpa using hnd) rfl
        (fun x hx => ⟨hlen0 ▸ links_lt _ (hw0.ok.wf i).links x hx, fun m hm => hw0.ok.disj i m (fun e => hm e.symm) x hx⟩)) tidy)
      h.length hlen
    rw [e0] at e1; cases e1
    refine ⟨w', e2, by simpa using h3 i, ?_⟩
    have := h3 j
    simpa [hij.symm] using this

/-- Unchecked: node 1, which has a null `next`, is appended at an iterator that is at the end; the iterator at the first node then
advances to it. -/
example : ∃ ls its rs, ITidyRun (ι := Unit) (κ := Bool) ⟨.unchecked, .returns⟩ 2 (fun _ => []) (fun _ => none)
    (TidyAtFirst [⟨some 1, some 1⟩, ⟨some 0, none⟩])
    [.list () (.pushBack 0), .begin true (), .insertAt () false 1, .inc true, .deref true] ls its rs ∧
    ls () = [0, 1] ∧ its true = some 1 := by
  refine ⟨_, _, _, .cons (.edit (l' := [0]) (.list _ _) rfl (by simp [Op.added]) (by simp))
    (.cons (.look (by rintro _ _ ⟨⟩) (.begin true ()))
    (.cons (.edit (l' := [0, 1]) (.insertAt _ _ _) rfl (by simp [Op.added]) (by simp [tidyAfter, TidyAtFirst]))
    (.cons (.look (by rintro _ _ ⟨⟩) (.inc (x := 0) (i := ()) (A := []) (B := [1]) rfl rfl))
    (.cons (.look (by rintro _ _ ⟨⟩) (.deref (x := 1) (i := ()) rfl (by simp))) (.nil _ _ _))))), rfl, rfl⟩

/-- A loop whose body appends a tidy node with `insert(end(), n)`, which is then visited. -/
example : ∃ tidy, TidySweep (ι := Unit) ⟨.unchecked, .returns⟩ 3 () (fun x => if x = 0 then [((), .insert none 1)] else [])
    (fun _ => [0, 2]) tidy (some 0) [0, 2, 1] (fun _ => [0, 2, 1]) ∧ tidy 1 := by
  refine ⟨fun n => n = 1, ?_, rfl⟩
  exact .turn (A := []) (B := [2]) rfl (.cons (l' := [0, 2, 1]) rfl (by simp [Op.added]) (by simp) (.nil _ _))
    (.turn (A := [0]) (B := [1]) rfl (.nil _ _) (.turn (A := [0, 2]) (B := []) rfl (.nil _ _) (.done _ _)))

end Verif.IList
