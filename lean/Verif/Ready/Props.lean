import Verif.Ready.Spec
import Verif.IList.Props
import Verif.Bitset.PropsVisit

/-!
# C144: ready queues
-/

namespace Verif.Ready

open Verif.IList (WorldOk)
open Verif.BitOps (StdWidth)
open Verif.Bitset (bits storageSize storage_bounds)

/-- The tasks of one priority. -/
def ofPrio (t : Tasks) (p : Nat) : List Nat := (t.filter fun e => e.2 = p).map Prod.fst

/-- The invariant: each list holds the tasks of its priority in order, and the bitset has the priorities without tasks. -/
structure Inv (c : IList.Cfg) (w N size : Nat) (s : State w) (t : Tasks) : Prop where
  ok : WorldOk c s.world (ofPrio t)
  len : s.world.heap.length = size
  prio : ∀ e ∈ t, e.2 < N
  words : s.idle.length = storageSize w N
  idle : ∀ p, p < N → (bits s.idle p = true ↔ ∀ e ∈ t, e.2 ≠ p)

theorem ofPrio_append (A B : Tasks) (p : Nat) : ofPrio (A ++ B) p = ofPrio A p ++ ofPrio B p := by
  simp [ofPrio]

theorem ofPrio_cons (n q : Nat) (B : Tasks) (p : Nat) : ofPrio ((n, q) :: B) p = if q = p then n :: ofPrio B p else ofPrio B p := by
  unfold ofPrio
  by_cases h : q = p <;> simp [h]

theorem ofPrio_nil {t : Tasks} {p : Nat} : ofPrio t p = [] ↔ ∀ e ∈ t, e.2 ≠ p := by
  simp [ofPrio, List.filter_eq_nil_iff]

theorem mem_ofPrio {t : Tasks} {p n : Nat} : n ∈ ofPrio t p ↔ (n, p) ∈ t := by
  simp [ofPrio]

/-- The world after a call on list `p` holds the tasks `t'`. -/
theorem world_step {c : IList.Cfg} {l : IList.World Nat} {t t' : Tasks} (hl : WorldOk c l (ofPrio t)) {p : Nat} {o : IList.Op} {r : IList.Out}
    (hs : IList.specStep (ofPrio t p) o = some (ofPrio t' p, r)) (ho : ∀ q, q ≠ p → ofPrio t' q = ofPrio t q)
    (hn : IList.NodeOk c l.heap.length (ofPrio t) p o) :
    ∃ l', IList.stepW c l p o = .ok (l', r, 0) ∧ l'.heap.length = l.heap.length ∧ WorldOk c l' (ofPrio t') := by
  obtain ⟨l', e, h1, h2, _⟩ := IList.stepW_ok hl hs hn
  refine ⟨l', e, h1, ?_⟩
  have : (fun j => if j = p then ofPrio t' p else ofPrio t j) = ofPrio t' := by
    funext j
    by_cases hj : j = p
    · simp [hj]
    · simp [hj, ho j hj]
  rw [this] at h2
  exact h2

theorem take_ok {c : IList.Cfg} {w : Nat} {s : State w} {A B : Tasks} {n p : Nat} (hl : WorldOk c s.world (ofPrio (A ++ (n, p) :: B)))
    (hA : ∀ e ∈ A, e.2 ≠ p) :
    ∃ l', take c s p = .ok (⟨l', s.idle⟩, n) ∧ l'.heap.length = s.world.heap.length ∧ WorldOk c l' (ofPrio (A ++ B)) := by
  obtain ⟨l', e, h1, h2⟩ := world_step (t' := A ++ B) hl (p := p) (o := .popFront) (r := .node (some n))
    (by simp [ofPrio_append, ofPrio_cons, ofPrio_nil.mpr hA, IList.specStep])
    (fun q hq => by simp [ofPrio_append, ofPrio_cons, Ne.symm hq])
    ⟨fun m hm => by simp [IList.Op.added] at hm, fun m hm => by simp at hm⟩
  exact ⟨l', by simp [take, e], h1, h2⟩

theorem settle_ok {c : IList.Cfg} {w N size : Nat} (hw : StdWidth w) {s : State w} {t : Tasks} {p : Nat} (hp : p < N)
    (hl : WorldOk c s.world (ofPrio t)) (hlen : s.world.heap.length = size) (hprio : ∀ e ∈ t, e.2 < N)
    (hwords : s.idle.length = storageSize w N)
    (hidle : ∀ q, q < N → q ≠ p → (bits s.idle q = true ↔ ∀ e ∈ t, e.2 ≠ q)) (hone : bits s.idle p = false) :
    ∃ s', settle s p = .ok s' ∧ Inv c w N size s' t := by
  have hw0 := Bitset.StdWidth.pos hw
  have hB := storage_bounds hw0 N
  unfold settle
  have hh := (hl.wf p).head
  by_cases he : ofPrio t p = []
  · rw [he] at hh
    rw [if_pos (by simpa using hh)]
    obtain ⟨r, e1, e2, e3⟩ := Bitset.set_spec hw0 (s := s.idle) (i := p) (by rw [hwords]; omega) true
    refine ⟨⟨s.world, r⟩, by simp [e1], hl, hlen, hprio, by simpa [hwords] using e2, fun q hq => ?_⟩
    simp only [e3]
    by_cases hqp : q = p
    · subst hqp
      simpa using ofPrio_nil.mp he
    · simp only [hqp, if_false]
      exact hidle q hq hqp
  · have hne : (s.world.lists p).head ≠ none := by rw [hh]; simpa using he
    rw [if_neg hne]
    refine ⟨s, rfl, hl, hlen, hprio, hwords, fun q hq => ?_⟩
    by_cases hqp : q = p
    · subst hqp
      rw [hone]
      simp only [Bool.false_eq_true, false_iff]
      intro h; exact he (ofPrio_nil.mpr h)
    · exact hidle q hq hqp

theorem step_ok {c : IList.Cfg} {w N size : Nat} (hw : StdWidth w) {s : State w} {t t' : Tasks} {k : Cmd} {r : Option Nat}
    (hi : Inv c w N size s t) (hs : Step N size t k r t') : ∃ s', step c N s k = .ok (s', r) ∧ Inv c w N size s' t' := by
  have hw0 := Bitset.StdWidth.pos hw
  have hB := storage_bounds hw0 N
  have bit_false : ∀ {n p}, (n, p) ∈ t → bits s.idle p = false := by
    intro n p hm
    have hp := hi.prio _ hm
    cases hb : bits s.idle p with
    | false => rfl
    | true => exact absurd rfl ((hi.idle p hp).mp hb _ hm)
  cases hs with
  | @ready _ n p hn hp hf =>
    obtain ⟨l', e, h1, h2⟩ := world_step (t' := t ++ [(n, p)]) hi.ok (p := p) (o := .pushBack n) (r := .unit)
      (by simp [ofPrio_append, ofPrio_cons, IList.specStep, ofPrio])
      (fun q hq => by simp [ofPrio_append, ofPrio_cons, Ne.symm hq, ofPrio])
      ⟨fun m hm => by
        simp only [IList.Op.added, Option.some.injEq] at hm
        subst hm
        exact ⟨by rw [hi.len]; exact hn, fun j hj => hf _ (mem_ofPrio.mp hj) rfl⟩, fun m hm => by simp at hm⟩
    obtain ⟨i, e1, e2, e3⟩ := Bitset.reset_spec hw0 (s := s.idle) (i := p) (by rw [hi.words]; omega)
    refine ⟨⟨l', i⟩, by simp [step, e, e1], h2, h1.trans hi.len, ?_, by simpa [hi.words] using e2, fun q hq => ?_⟩
    · intro x hx
      rcases List.mem_append.mp hx with hx | hx
      · exact hi.prio x hx
      · simp at hx; simp [hx, hp]
    · simp only [e3]
      by_cases hqp : q = p
      · subst hqp
        simp only [if_true, Bool.false_eq_true, false_iff]
        intro h; exact h (n, q) (by simp) rfl
      · simp only [hqp, if_false]
        rw [hi.idle q hq]
        constructor
        · intro h x hx
          rcases List.mem_append.mp hx with hx | hx
          · exact h x hx
          · simp at hx; simp [hx, Ne.symm hqp]
        · intro h x hx; exact h x (by simp [hx])
  | @block A B n p =>
    have hp : p < N := hi.prio (n, p) (by simp)
    have hnd := (hi.ok.wf p).nodup
    obtain ⟨l', e, h1, h2⟩ := world_step (t' := A ++ B) hi.ok (p := p) (o := .remove n) (r := .unit)
      (by
        simp only [ofPrio_append, ofPrio_cons, if_true] at hnd ⊢
        simp only [IList.specStep]
        rw [if_pos (by simp)]
        have hd := List.nodup_append.mp hnd
        have h3 := List.nodup_cons.mp hd.2.1
        rw [List.filter_append, List.filter_cons_of_neg (by simp),
          List.filter_eq_self.mpr (fun x hx => by have := hd.2.2 x hx n (by simp); simpa using this),
          List.filter_eq_self.mpr (fun x hx => by simp only [ne_eq, decide_not, Bool.not_eq_eq_eq_not, Bool.not_true, decide_eq_false_iff_not]; rintro rfl; exact h3.1 hx)])
      (fun q hq => by simp [ofPrio_append, ofPrio_cons, Ne.symm hq])
      ⟨fun m hm => by simp [IList.Op.added] at hm, fun m hm => by simp at hm⟩
    obtain ⟨s', e2, hi'⟩ := settle_ok hw (s := ⟨l', s.idle⟩) (t := A ++ B) (p := p) hp h2 (h1.trans hi.len)
      (fun x hx => hi.prio x (by simp at hx ⊢; grind)) hi.words (fun q hq hqp => by
        rw [hi.idle q hq]
        constructor
        · intro h x hx; exact h x (by simp at hx ⊢; grind)
        · intro h x hx
          simp at hx
          rcases hx with hx | rfl | hx
          · exact h x (by simp [hx])
          · exact Ne.symm hqp
          · exact h x (by simp [hx])) (bit_false (n := n) (by simp))
    exact ⟨s', by simp [step, e, e2], hi'⟩
  | @rotate A B n p hA =>
    obtain ⟨l1, e1, h1, h2⟩ := take_ok hi.ok hA
    have hnd := (hi.ok.wf p).nodup
    have hfree : ∀ j, n ∉ ofPrio (A ++ B) j := by
      intro j hj
      by_cases hjp : j = p
      · subst hjp
        simp only [ofPrio_append, ofPrio_cons, if_true] at hnd hj
        have hd := List.nodup_append.mp hnd
        rcases List.mem_append.mp hj with hj | hj
        · exact hd.2.2 n hj n (by simp) rfl
        · exact (List.nodup_cons.mp hd.2.1).1 hj
      · refine hi.ok.disj p j (Ne.symm hjp) n (by simp [ofPrio_append, ofPrio_cons]) ?_
        simp only [ofPrio_append, ofPrio_cons, if_neg (Ne.symm hjp)] at hj ⊢
        exact hj
    obtain ⟨l2, e2, h3, h4⟩ := world_step (t' := A ++ B ++ [(n, p)]) h2 (p := p) (o := .pushBack n) (r := .unit)
      (by simp [ofPrio_append, ofPrio_cons, IList.specStep, ofPrio])
      (fun q hq => by simp [ofPrio_append, ofPrio_cons, Ne.symm hq, ofPrio])
      ⟨fun m hm => by
        simp only [IList.Op.added, Option.some.injEq] at hm
        subst hm
        refine ⟨?_, hfree⟩
        rw [h1]
        exact IList.links_lt _ (hi.ok.wf p).links _ (by simp [ofPrio_append, ofPrio_cons]), fun m hm => by simp at hm⟩
    refine ⟨⟨l2, s.idle⟩, by simp [step, e1, e2], h4, (h3.trans h1).trans hi.len, fun x hx => hi.prio x (by simp at hx ⊢; grind), hi.words, fun q hq => ?_⟩
    rw [hi.idle q hq]
    constructor <;> intro h x hx <;> exact h x (by simp at hx ⊢; grind)
  | @next A B n p hA hBp =>
    have hp : p < N := hi.prio (n, p) (by simp)
    have hA' : ∀ e ∈ A, e.2 ≠ p := fun e he => by have := hA e he; omega
    obtain ⟨k, ek, hk, hlow, hz⟩ := Bitset.lowestUnsetLoop_spec hw s.idle 0
    have hkp : k = p := by
      rcases Nat.lt_trichotomy k p with h | h | h
      · have hb := hz (by rw [hi.words]; omega)
        have : bits s.idle k = true := (hi.idle k (by omega)).mpr (fun x hx => by
          simp at hx
          rcases hx with hx | rfl | hx
          · have := hA x hx; omega
          · simp only; omega
          · have := hBp x hx; omega)
        rw [this] at hb; cases hb
      · exact h
      · have := hlow p h
        rw [bit_false (n := n) (by simp)] at this; cases this
    subst hkp
    obtain ⟨l1, e1, h1, h2⟩ := take_ok hi.ok hA'
    obtain ⟨s', e2, hi'⟩ := settle_ok hw (s := ⟨l1, s.idle⟩) (t := A ++ B) (p := k) hp h2 (h1.trans hi.len)
      (fun x hx => hi.prio x (by simp at hx ⊢; grind)) hi.words (fun q hq hqp => by
        rw [hi.idle q hq]
        constructor
        · intro h x hx; exact h x (by simp at hx ⊢; grind)
        · intro h x hx
          simp at hx
          rcases hx with hx | rfl | hx
          · exact h x (by simp [hx])
          · exact Ne.symm hqp
          · exact h x (by simp [hx])) (bit_false (n := n) (by simp))
    refine ⟨s', ?_, hi'⟩
    simp [step, Bitset.lowestUnset, ek, hp, e1, e2]
  | idle =>
    obtain ⟨k, ek, hk, hlow, hz⟩ := Bitset.lowestUnsetLoop_spec hw s.idle 0
    have hkN : ¬ k < N := by
      intro h
      have h1 := hz (by rw [hi.words]; omega)
      rw [(hi.idle k h).mpr (by simp)] at h1; cases h1
    refine ⟨s, ?_, hi⟩
    simp [step, Bitset.lowestUnset, ek, hkN]

theorem run_ok {c : IList.Cfg} {w N size : Nat} (hw : StdWidth w) {t t' : Tasks} {ks : List Cmd} {rs : List (Option Nat)}
    (hr : Runs N size t ks rs t') : ∀ {s : State w}, Inv c w N size s t → ∃ s', run c N s ks = .ok (s', rs) ∧ Inv c w N size s' t' := by
  induction hr with
  | nil t => intro s hi; exact ⟨s, rfl, hi⟩
  | cons h _ ih =>
    intro s hi
    obtain ⟨s1, e1, hi1⟩ := step_ok hw hi h
    obtain ⟨s2, e2, hi2⟩ := ih hi1
    exact ⟨s2, by simp [run, e1, e2], hi2⟩

theorem initial_ok {c : IList.Cfg} {w : Nat} (hw : StdWidth w) (N : Nat) {h : IList.Heap} (hf : IList.Fresh c h) :
    Inv c w N h.length (initial w N h) [] := by
  have hw0 := Bitset.StdWidth.pos hw
  have hB := storage_bounds hw0 N
  have h0 : ofPrio [] = fun _ => [] := by funext p; rfl
  refine ⟨by rw [h0]; exact IList.start_ok hf, rfl, by simp, by simp [initial, Bitset.setAll, Bitset.empty], fun p hp => ?_⟩
  have : bits (Bitset.setAll (Bitset.empty w N)) p = true := Bitset.setAll_bits hw0 (by simp [Bitset.empty]; omega)
  simp [initial, this]

/-- **C144.** Every history of making tasks ready, blocking them, rotating the tasks of a priority and taking the next one, for any number of
priorities and tasks and with either policy, is defined, and the next task is always the one that has been ready longest among those of
highest priority; there is none exactly if no task is ready. -/
theorem C144_ready_queues {c : IList.Cfg} {w N : Nat} (hw : StdWidth w) {h : IList.Heap} (hf : IList.Fresh c h) {ks : List Cmd}
    {rs : List (Option Nat)} {t : Tasks} (hr : Runs N h.length [] ks rs t) :
    ∃ s, run c N (initial w N h) ks = .ok (s, rs) := by
  obtain ⟨s, e, _⟩ := run_ok hw hr (initial_ok (c := c) hw N hf)
  exact ⟨s, e⟩

/-- The specification never leaves `next` without an answer. -/
theorem next_total (N size : Nat) (t : Tasks) : ∃ r t', Step N size t .next r t' := by
  induction t with
  | nil => exact ⟨_, _, .idle⟩
  | cons e t ih =>
    obtain ⟨r, t', h⟩ := ih
    generalize hk : Cmd.next = k at h
    cases h with
    | ready => cases hk
    | block => cases hk
    | rotate => cases hk
    | @next A B n p hA hB =>
      by_cases hp : p < e.2
      · exact ⟨_, _, .next (A := e :: A) (by simpa [hp] using fun a b => hA (a, b)) hB⟩
      · refine ⟨_, _, .next (A := []) (n := e.1) (p := e.2) (B := A ++ (n, p) :: B) (by simp) ?_⟩
        intro x hx
        simp at hx
        rcases hx with hx | rfl | hx
        · have := hA x hx; omega
        · simp only; omega
        · have := hB x hx; omega
    | idle => exact ⟨_, _, .next (A := []) (n := e.1) (p := e.2) (B := []) (by simp) (by simp)⟩

/-- Tasks 0 to 3 of priorities 2, 1, 2 and 1: 1 is rotated behind 3, 0 is blocked; then 3, 1 and 2 are next. -/
example : Runs 12 4 [] [.ready 0 2, .ready 1 1, .ready 2 2, .ready 3 1, .rotate 1, .block 0 2, .next, .next, .next, .next]
    [none, none, none, none, none, none, some 3, some 1, some 2, none] [] :=
  .cons (.ready (by decide) (by decide) (by decide)) <| .cons (.ready (by decide) (by decide) (by decide)) <|
  .cons (.ready (by decide) (by decide) (by decide)) <| .cons (.ready (by decide) (by decide) (by decide)) <|
  .cons (.rotate (A := [(0, 2)]) (B := [(2, 2), (3, 1)]) (by decide)) <| .cons (.block (A := []) (B := [(2, 2), (3, 1), (1, 1)])) <|
  .cons (.next (A := [(2, 2)]) (B := [(1, 1)]) (by decide) (by decide)) <| .cons (.next (A := [(2, 2)]) (B := []) (by decide) (by decide)) <|
  .cons (.next (A := []) (B := []) (by decide) (by decide)) <| .cons .idle <| .nil _

end Verif.Ready
