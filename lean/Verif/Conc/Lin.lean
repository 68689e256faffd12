import Verif.Conc.Model
import Mathlib.Algebra.BigOperators.Group.Finset.Basic
import Mathlib.Algebra.BigOperators.Group.Finset.Piecewise
import Mathlib.Algebra.BigOperators.Group.List.Basic

/-!
# Operations that are one atomic step take effect one after the other
-/

namespace Verif.Conc

/-- One operation as it took effect: by which thread, and what it returned. -/
structure Event (Op R : Type) where
  tid : Nat
  op : Op
  res : R

/-- The operations of one thread in a history. -/
def opsOf {Op R : Type} (h : List (Event Op R)) (t : Nat) : List Op :=
  (h.filter (fun e => e.tid == t)).map (·.op)

/-- The results of one thread in a history. -/
def resOf {Op R : Type} (h : List (Event Op R)) (t : Nat) : List R :=
  (h.filter (fun e => e.tid == t)).map (·.res)

variable {w : Nat} {Op R : Type}

/-- The history `h` explains the state `s` reached from `c0` by threads running `progs`: the cell is what
the updates give in the order of `h`, every result is computed from the value just before, and each
thread has performed a prefix of its operations and holds exactly those results. -/
structure Explains (impl : Op → Prog w R) (f : Op → BitVec w → BitVec w) (g : Op → BitVec w → R)
    (progs : List (List Op)) (c0 : BitVec w) (h : List (Event Op R)) (s : Sys w (List R)) : Prop where
  cell : s.cell = h.foldl (fun c e => f e.op c) c0
  results : ∀ pre e post, h = pre ++ e :: post → e.res = g e.op (pre.foldl (fun c e => f e.op c) c0)
  len : s.threads.length = progs.length
  tids : ∀ e ∈ h, e.tid < progs.length
  threads : ∀ t ops, progs[t]? = some ops → ∃ rest, ops = opsOf h t ++ rest ∧
    s.threads[t]? = some (threadProg impl rest (resOf h t))

/-- A thread stopped by undefined behaviour stays so. -/
theorem ub_stays {s : Sys w (List R)} {t : Nat} (h : s.threads[t]? = some .ub) :
    ∀ (sched : List Nat) {s' : Sys w (List R)}, s.run sched = some s' → s'.threads[t]? = some .ub := by
  intro sched
  induction sched generalizing s with
  | nil => intro s' hr; simp only [Sys.run, Option.some.injEq] at hr; rw [← hr]; exact h
  | cons u us ih =>
    intro s' hr
    rw [Sys.run] at hr
    split at hr
    · rename_i s1 hs1
      refine ih ?_ hr
      unfold Sys.step at hs1
      split at hs1
      · rename_i f k hth
        have hut : u ≠ t := by rintro rfl; rw [h] at hth; cases hth
        simp only [Option.some.injEq] at hs1
        rw [← hs1]
        simp only
        rw [List.getElem?_set_ne hut]; exact h
      · cases hs1
    · cases hr

theorem explains_step {impl : Op → Prog w R} {f : Op → BitVec w → BitVec w} {g : Op → BitVec w → R}
    {k : Op → BitVec w → Prog w R} {Legal : Op → Prop} (himpl : ∀ op, Legal op → impl op = .atomically (f op) (k op))
    {progs : List (List Op)} (hlegal : ∀ ops ∈ progs, ∀ op ∈ ops, Legal op) {c0 : BitVec w}
    {h : List (Event Op R)} {s s' : Sys w (List R)} (hx : Explains impl f g progs c0 h s) {t : Nat}
    (hs : s.step t = some s')
    (hk : ∀ op, Legal op → ∀ c, k op c = .ret (g op c) ∨ k op c = .ub ∧ s'.threads[t]? ≠ some .ub) :
    ∃ e : Event Op R, e.tid = t ∧ Explains impl f g progs c0 (h ++ [e]) s' := by
  unfold Sys.step at hs
  split at hs
  · rename_i f' k' hth
    have htlt : t < s.threads.length := by
      rw [List.getElem?_eq_some_iff] at hth; exact hth.1
    have htp : t < progs.length := by rw [← hx.len]; exact htlt
    obtain ⟨rest, hops, hrest⟩ := hx.threads t progs[t] (List.getElem?_eq_getElem htp)
    rw [hth] at hrest
    rcases rest with _ | ⟨op, rest⟩
    · simp [threadProg] at hrest
    · have hl : Legal op := hlegal progs[t] (List.getElem_mem htp) op (by rw [hops]; simp)
      rw [threadProg, himpl op hl] at hrest
      simp only [Prog.bind, Option.some.injEq, Prog.atomically.injEq] at hrest
      obtain ⟨rfl, rfl⟩ := hrest
      simp only [Option.some.injEq] at hs
      subst hs
      have hk' : k op s.cell = .ret (g op s.cell) := by
        rcases hk op hl s.cell with h1 | ⟨h1, h2⟩
        · exact h1
        · exfalso
          apply h2
          simp only
          rw [List.getElem?_set_self htlt, h1]; rfl
      refine ⟨⟨t, op, g op s.cell⟩, rfl, ?_, ?_, ?_, ?_, ?_⟩
      · rw [List.foldl_append, ← hx.cell]; rfl
      · intro pre e post hsplit
        rcases List.eq_nil_or_concat post with rfl | ⟨post', e', rfl⟩
        · have := List.append_inj' hsplit rfl
          obtain ⟨rfl, h2⟩ := this
          simp only [List.cons.injEq, and_true] at h2
          subst h2
          rw [← hx.cell]
        · rw [List.concat_eq_append, ← List.cons_append, ← List.append_assoc] at hsplit
          have := List.append_inj' hsplit rfl
          exact hx.results pre e post' this.1
      · simp [hx.len]
      · intro e he
        simp only [List.mem_append, List.mem_singleton] at he
        rcases he with he | rfl
        · exact hx.tids e he
        · exact htp
      · intro u ops hu
        obtain ⟨rest', h1, h2⟩ := hx.threads u ops hu
        by_cases hut : u = t
        · subst hut
          refine ⟨rest, ?_, ?_⟩
          · rw [List.getElem?_eq_getElem htp, Option.some.injEq] at hu
            rw [← hu, hops]
            simp [opsOf]
          · rw [List.getElem?_set_self htlt]
            rw [hk']; simp [resOf, Prog.bind]
        · refine ⟨rest', ?_, ?_⟩
          · rw [h1]; simp [opsOf, Ne.symm hut]
          · rw [List.getElem?_set_ne (Ne.symm hut), h2]
            simp [resOf, Ne.symm hut]
  · cases hs

theorem explains_start (impl : Op → Prog w R) (f : Op → BitVec w → BitVec w) (g : Op → BitVec w → R)
    (progs : List (List Op)) (c0 : BitVec w) : Explains impl f g progs c0 [] (start impl progs c0) := by
  refine ⟨rfl, ?_, by simp [start], by simp, ?_⟩
  · intro pre e post h; simp at h
  · intro t ops h
    exact ⟨ops, by simp [opsOf], by simp [start, h, resOf]⟩

theorem explains_run {impl : Op → Prog w R} {f : Op → BitVec w → BitVec w} {g : Op → BitVec w → R}
    {k : Op → BitVec w → Prog w R} {Legal : Op → Prop} (himpl : ∀ op, Legal op → impl op = .atomically (f op) (k op))
    {progs : List (List Op)} (hlegal : ∀ ops ∈ progs, ∀ op ∈ ops, Legal op) {c0 : BitVec w} :
    ∀ (sched : List Nat) {h : List (Event Op R)} {s s' : Sys w (List R)},
    Explains impl f g progs c0 h s → s.run sched = some s' →
    (∀ op, Legal op → ∀ c, k op c = .ret (g op c) ∨ k op c = .ub ∧ ∀ t : Nat, s'.threads[t]? ≠ some .ub) →
    ∃ h' : List (Event Op R), h'.map (·.tid) = sched ∧ Explains impl f g progs c0 (h ++ h') s' := by
  intro sched
  induction sched with
  | nil =>
    intro h s s' hx hr _
    simp only [Sys.run, Option.some.injEq] at hr
    subst hr
    exact ⟨[], rfl, by simpa using hx⟩
  | cons t ts ih =>
    intro h s s' hx hr hk
    rw [Sys.run] at hr
    split at hr
    · rename_i s1 hs1
      obtain ⟨e, he, hx1⟩ := explains_step himpl hlegal hx hs1 (fun op hl c => (hk op hl c).imp id
        fun ⟨h1, h2⟩ => ⟨h1, fun h3 => h2 t (ub_stays h3 ts hr)⟩)
      obtain ⟨h', h1, h2⟩ := ih hx1 hr hk
      exact ⟨e :: h', by simp [he, h1], by simpa using h2⟩
    · cases hr

/-- If every legal operation is a single atomic update, which may stop its thread by undefined behaviour,
and no thread has been stopped, then the state reached is explained by the operations taking effect one
after the other in the order of the schedule. -/
theorem linearizable_of_no_ub {impl : Op → Prog w R} {f : Op → BitVec w → BitVec w} {g : Op → BitVec w → R}
    {k : Op → BitVec w → Prog w R} {Legal : Op → Prop} (himpl : ∀ op, Legal op → impl op = .atomically (f op) (k op))
    {progs : List (List Op)} (hlegal : ∀ ops ∈ progs, ∀ op ∈ ops, Legal op) {c0 : BitVec w}
    {sched : List Nat} {s : Sys w (List R)} (hr : (start impl progs c0).run sched = some s)
    (hk : ∀ op, Legal op → ∀ c, k op c = .ret (g op c) ∨ k op c = .ub ∧ ∀ t : Nat, s.threads[t]? ≠ some .ub) :
    ∃ h : List (Event Op R), h.map (·.tid) = sched ∧ Explains impl f g progs c0 h s := by
  obtain ⟨h, h1, h2⟩ := explains_run himpl hlegal sched (explains_start impl f g progs c0) hr hk
  exact ⟨h, h1, by simpa using h2⟩

/-- **Linearizability.** If every legal operation is a single atomic update, then for every number of
threads, programs and schedules the state reached is explained by the operations taking effect one after
the other in the order of the schedule. -/
theorem linearizable {impl : Op → Prog w R} {f : Op → BitVec w → BitVec w} {g : Op → BitVec w → R}
    {Legal : Op → Prop} (himpl : ∀ op, Legal op → impl op = .atomically (f op) (fun c => .ret (g op c)))
    {progs : List (List Op)} (hlegal : ∀ ops ∈ progs, ∀ op ∈ ops, Legal op) {c0 : BitVec w}
    {sched : List Nat} {s : Sys w (List R)} (hr : (start impl progs c0).run sched = some s) :
    ∃ h : List (Event Op R), h.map (·.tid) = sched ∧ Explains impl f g progs c0 h s := by
  exact linearizable_of_no_ub himpl hlegal hr (fun _ _ _ => .inl rfl)

/-- A thread with operations left can always take a step: no operation blocks or retries. -/
theorem can_step {impl : Op → Prog w R} {f : Op → BitVec w → BitVec w} {g : Op → BitVec w → R}
    {k : Op → BitVec w → Prog w R} {Legal : Op → Prop} (himpl : ∀ op, Legal op → impl op = .atomically (f op) (k op))
    {progs : List (List Op)} (hlegal : ∀ ops ∈ progs, ∀ op ∈ ops, Legal op) {c0 : BitVec w}
    {h : List (Event Op R)} {s : Sys w (List R)} (hx : Explains impl f g progs c0 h s)
    {t : Nat} {ops : List Op} (ht : progs[t]? = some ops) :
    ((opsOf h t).length < ops.length → (s.step t).isSome) ∧
    (s.threads[t]? = some (.ret (resOf h t)) ↔ opsOf h t = ops) := by
  obtain ⟨rest, h1, h2⟩ := hx.threads t ops ht
  rcases rest with _ | ⟨op, rest⟩
  · have e : opsOf h t = ops := by simpa using h1.symm
    refine ⟨fun hlt => by rw [e] at hlt; omega, fun _ => e, fun _ => by rw [h2]; rfl⟩
  · have hl : Legal op := hlegal ops (List.mem_of_getElem? ht) op (by rw [h1]; simp)
    rw [threadProg, himpl op hl] at h2
    refine ⟨fun _ => by simp [Sys.step, h2, Prog.bind], fun h3 => ?_, fun h3 => ?_⟩
    · rw [h2] at h3; simp [Prog.bind] at h3
    · rw [h3] at h1
      have := congrArg List.length h1
      simp at this

/-- A sum over a history is the sum over the threads of the sums over their operations. -/
theorem sum_by_thread {M : Type} [AddCommMonoid M] (d : Op → M) (n : Nat) : ∀ h : List (Event Op R),
    (∀ e ∈ h, e.tid < n) →
    (h.map (fun e => d e.op)).sum = ∑ t ∈ Finset.range n, ((opsOf h t).map d).sum := by
  intro h
  induction h with
  | nil => intro _; simp [opsOf]
  | cons e h ih =>
    intro hlt
    have h1 : ∀ t, ((opsOf (e :: h) t).map d).sum =
        (if e.tid = t then d e.op else 0) + ((opsOf h t).map d).sum := by
      intro t
      by_cases ht : e.tid = t <;> simp [opsOf, ht]
    simp only [List.map_cons, List.sum_cons, h1, Finset.sum_add_distrib]
    rw [Finset.sum_ite_eq, if_pos (Finset.mem_range.mpr (hlt e (by simp))),
      ih (fun e' he' => hlt e' (by simp [he']))]

end Verif.Conc
