import Verif.Caught.PropsList

/-!
# Properties of panic handlers that repair (C142)
-/

namespace Verif.Caught

open Verif.Unwind Verif.Judge

variable {E W B α ι : Type}

/-! ## cx_queue -/

/-- **C142, one call on a queue.** Whatever the queue and whatever the handler: if the call is misused, the handler returns and the call is not
misused on the queue that the handler leaves, then it is as if it had been made on that queue. -/
theorem C142_queue_continues {P : Msg → Raise E (CxQueue.Queue α × W)} {N : Nat} {mv : α → α} {o : CxQueue.Op α}
    {q q1 : CxQueue.Queue α} {w w1 : W} {m : Msg} (h : misuse N q.size o = some m) (hp : P m (q, w) = .ok (q1, w1) ())
    (h1 : misuse N q1.size o = none) : qStep P N mv o (q, w) = qStep P N mv o (q1, w1) := by
  cases o with
  | push x =>
    simp only [misuse] at h h1
    split at h
    · simp at h
    · rename_i hc
      split at h1
      · rename_i hc1
        obtain rfl := by simpa using h
        simp [qStep, qPush, checkPush, Nat.not_lt.mp hc, hp, Nat.not_le.mpr hc1, Res.andThen]
      · simp at h1
  | size | empty | full | clear => simp [misuse] at h
  | pop | front | back | setFront _ | setBack _ =>
    simp only [misuse] at h h1
    split at h
    · rename_i hc
      split at h1
      · simp at h1
      · rename_i hc1
        obtain rfl := by simpa using h
        simp [qStep, qPop, qFront, qBack, qSetFront, qSetBack, checkPop, hc, hp, hc1, Res.andThen]
    · simp at h

/-- A call that is not misused does not depend on the handler. -/
theorem qStep_indep {P P' : Msg → Raise E (CxQueue.Queue α × W)} {N : Nat} {mv : α → α} {o : CxQueue.Op α} {q : CxQueue.Queue α} {w : W}
    (h : misuse N q.size o = none) : qStep P N mv o (q, w) = qStep P' N mv o (q, w) := by
  cases o with
  | push x =>
    simp only [misuse] at h
    split at h
    · rename_i hc; simp [qStep, qPush, checkPush, Nat.not_le.mpr hc]
    · simp at h
  | size | empty | full | clear => rfl
  | pop | front | back | setFront _ | setBack _ =>
    simp only [misuse] at h
    split at h
    · simp at h
    · rename_i hc; simp [qStep, qPop, qFront, qBack, qSetFront, qSetBack, checkPop, hc]

theorem misuse_of_none {N : Nat} {l : List α} {o : CxQueue.Op α} (h : CxQueue.specStep N l o = none) :
    misuse N l.length o = some (message o) := by
  cases o <;> simp only [CxQueue.specStep, misuse, message] at h ⊢ <;> first
    | (split at h <;> simp_all)
    | (cases l <;> simp_all)
    | simp at h

theorem misuse_of_some {N : Nat} {l : List α} {o : CxQueue.Op α} {x} (h : CxQueue.specStep N l o = some x) : misuse N l.length o = none := by
  cases o <;> simp only [CxQueue.specStep, misuse] at h ⊢ <;> first
    | (split at h <;> simp_all)
    | (cases l <;> simp_all)

theorem qStep_ok {P : Msg → Raise E (CxQueue.Queue α × W)} {N : Nat} {mv : α → α} (hN : N < szMod) {o : CxQueue.Op α} {q : CxQueue.Queue α}
    {l l' : List α} {r : CxQueue.Out α} {w : W} (hr : CxQueue.Rep N q l) (hs : CxQueue.specStep N l o = some (l', r)) :
    ∃ q', qStep P N mv o (q, w) = .ok (q', w) r ∧ CxQueue.Rep N q' l' := by
  obtain ⟨q1, hp, hr1⟩ := CxQueue.step_refines (c := ⟨N, .safe, .noreturn, mv⟩) hN hr hs
  refine ⟨q1, ?_, hr1⟩
  rw [qStep_indep (P' := fun _ => panics fun w => (w, .ok ())) (by rw [hr.size]; exact misuse_of_some hs), qStep_eq, hp]
  rfl

theorem history_repaired {N : Nat} {mv : α → α} (hN : N < szMod) {prog : Msg → W → List (CxQueue.Op α) × W} (ops : List (CxQueue.Op α)) :
    ∀ {q : CxQueue.Queue α} {l l' : List α} {w w' : W} {rs : List (CxQueue.Out α)}, CxQueue.Rep N q l →
      queueRepaired N prog l w ops = some (l', w', rs) →
      ∃ q', history (qStep (E := E) (qRepairs N mv prog) N mv) ops (q, w) = .ok (q', w') (rs.map some) ∧ CxQueue.Rep N q' l' := by
  induction ops with
  | nil =>
    intro q l l' w w' rs hr h
    simp only [queueRepaired, Option.some.injEq, Prod.mk.injEq] at h
    obtain ⟨rfl, rfl, rfl⟩ := h
    exact ⟨q, rfl, hr⟩
  | cons o os ih =>
    intro q l l' w w' rs hr h
    cases hs : CxQueue.specStep N l o with
    | some p =>
      obtain ⟨l1, r⟩ := p
      simp only [queueRepaired, hs, Option.map_eq_some_iff] at h
      obtain ⟨⟨l2, w2, rs2⟩, h2, h⟩ := h
      simp only [Prod.mk.injEq] at h
      obtain ⟨rfl, rfl, rfl⟩ := h
      obtain ⟨q1, e1, hr1⟩ := qStep_ok (E := E) (P := qRepairs N mv prog) (mv := mv) (w := w) hN hr hs
      obtain ⟨q2, e2, hr2⟩ := ih hr1 h2
      exact ⟨q2, by simp [history, e1, e2, Res.andThen], hr2⟩
    | none =>
      simp only [queueRepaired, hs, Option.bind_eq_some_iff, Option.map_eq_some_iff] at h
      obtain ⟨⟨l1, rs1⟩, h1, ⟨l2, r⟩, h2, ⟨l3, w3, rs3⟩, h3, h⟩ := h
      simp only [Prod.mk.injEq] at h
      obtain ⟨rfl, rfl, rfl⟩ := h
      have hm := misuse_of_none hs
      rw [← hr.size] at hm
      obtain ⟨q1, e1, hr1⟩ := CxQueue.run_refines (c := ⟨N, .safe, .noreturn, mv⟩) hN _ hr h1
      have hm1 := misuse_of_some h2
      have hl : l1.length = q1.size := hr1.size.symm
      simp only at hm1
      rw [hl] at hm1
      have e := C142_queue_continues (P := qRepairs (E := E) N mv prog) (mv := mv) (w := w) hm
        (by simp only [qRepairs, e1, need]; rfl) hm1
      obtain ⟨q2, e2, hr2⟩ := qStep_ok (E := E) (P := qRepairs N mv prog) (mv := mv) (w := _) hN hr1 h2
      obtain ⟨q3, e3, hr3⟩ := ih hr2 h3
      exact ⟨q3, by rw [history, e, e2]; simp [e3, Res.andThen], hr3⟩

/-- **C142, histories of a queue.** For every handler that makes calls on the queue and every history in which each misused call is allowed
after those calls, nothing is undefined and no exception leaves a call: the results are those of the bounded queue on which the handler's
calls have been made in those places. -/
theorem C142_queue_history {N : Nat} {mv : α → α} (hN : N < szMod) (d : α) {prog : Msg → W → List (CxQueue.Op α) × W}
    {ops : List (CxQueue.Op α)} {w w' : W} {l : List α} {rs : List (CxQueue.Out α)}
    (h : queueRepaired N prog [] w ops = some (l, w', rs)) :
    ∃ q', history (qStep (E := E) (qRepairs N mv prog) N mv) ops (CxQueue.init N d, w) = .ok (q', w') (rs.map some) := by
  obtain ⟨q', e, _⟩ := history_repaired (E := E) (mv := mv) hN ops (CxQueue.rep_init N d) h
  exact ⟨q', e⟩

/-- A handler that drops the oldest element when there is no room, and counts; without effect on underflow. -/
def dropOldest : Msg → Nat → List (CxQueue.Op α) × Nat
  | .overflow, k => ([.pop], k + 1)
  | .underflow, k => ([], k)

theorem dropOldest_spec {N : Nat} (hN : 0 < N) (xs : List α) : ∀ (l : List α) (k : Nat), l.length ≤ N →
    queueRepaired N dropOldest l k (xs.map .push) =
      some ((l ++ xs).drop (l.length + xs.length - N), k + (l.length + xs.length - N), xs.map .val) := by
  induction xs with
  | nil => intro l k hl; simp [queueRepaired, Nat.sub_eq_zero_of_le hl]
  | cons x xs ih =>
    intro l k hl
    by_cases hlt : l.length < N
    · simp only [List.map_cons, queueRepaired, CxQueue.specStep, hlt, if_true]
      rw [ih _ _ (by simp; omega)]
      simp [Nat.add_comm, Nat.add_left_comm]
    · obtain ⟨y, l, rfl⟩ : ∃ y t, l = y :: t := by cases l with | nil => simp at hlt; omega | cons y t => exact ⟨y, t, rfl⟩
      simp only [List.length_cons] at hl hlt
      simp only [List.map_cons, queueRepaired, CxQueue.specStep, List.length_cons, hlt, if_false, dropOldest, message, CxQueue.specRun,
        Option.bind_some]
      rw [if_pos (by omega)]
      simp only [Option.bind_some]
      rw [ih _ _ (by simp; omega)]
      have e1 : (l ++ [x]).length + xs.length - N = xs.length := by simp; omega
      have e2 : l.length + 1 + (xs.length + 1) - N = xs.length + 1 := by omega
      simp [e2]
      rw [show l.length + 1 + xs.length - N = xs.length by omega]
      exact ⟨rfl, by omega⟩

theorem pops_spec {N : Nat} {prog : Msg → W → List (CxQueue.Op α) × W} (l : List α) (w : W) :
    queueRepaired N prog l w (List.replicate l.length .pop) = some ([], w, l.map .val) := by
  induction l with
  | nil => rfl
  | cons x l ih => simp [List.replicate_succ, queueRepaired, CxQueue.specStep, ih]

theorem repaired_append {N : Nat} {prog : Msg → W → List (CxQueue.Op α) × W} (os : List (CxQueue.Op α)) (os' : List (CxQueue.Op α)) :
    ∀ (l : List α) (w : W), queueRepaired N prog l w (os ++ os') =
      (queueRepaired N prog l w os).bind fun x => (queueRepaired N prog x.1 x.2.1 os').map fun y => (y.1, y.2.1, x.2.2 ++ y.2.2) := by
  induction os with
  | nil => intro l w; simp [queueRepaired]
  | cons o os ih =>
    intro l w
    simp only [List.cons_append, queueRepaired]
    cases CxQueue.specStep N l o with
    | some p =>
      simp only [ih]
      cases queueRepaired N prog p.1 w os with
      | none => rfl
      | some y =>
        simp only [Option.bind_some, Option.map_some]
        cases queueRepaired N prog y.1 y.2.1 os' <;> rfl
    | none =>
      simp only
      generalize message o = m
      cases CxQueue.specRun N l (prog m w).1 with
      | none => rfl
      | some y =>
        simp only [Option.bind_some]
        cases CxQueue.specStep N y.1 o with
        | none => rfl
        | some z =>
          simp only [Option.bind_some, ih]
          cases queueRepaired N prog z.1 (prog m w).2 os with
          | none => rfl
          | some y =>
            simp only [Option.bind_some, Option.map_some]
            cases queueRepaired N prog y.1 y.2.1 os' <;> rfl

/-- **C142, the queue as a ring buffer.** With a handler that pops one element on overflow, a queue of any positive capacity keeps the most
recent elements: after any number of pushes, the handler has been called once for each element beyond the capacity, and what is popped then
is the last `N` of those that were pushed, oldest first. -/
theorem C142_ring_buffer {N : Nat} {mv : α → α} (h0 : 0 < N) (hN : N < szMod) (d : α) (xs : List α) :
    ∃ q', history (qStep (E := E) (qRepairs N mv dropOldest) N mv) (xs.map .push ++ List.replicate (min N xs.length) .pop)
        (CxQueue.init N d, 0) =
      .ok (q', xs.length - N) (xs.map (fun x => some (.val x)) ++ (xs.drop (xs.length - N)).map fun x => some (.val x)) := by
  have h : queueRepaired N dropOldest ([] : List α) 0 (xs.map .push ++ List.replicate (min N xs.length) .pop) =
      some ([], xs.length - N, xs.map .val ++ (xs.drop (xs.length - N)).map .val) := by
    rw [repaired_append, dropOldest_spec h0 xs [] 0 (by simp)]
    simp only [List.nil_append, List.length_nil, Nat.zero_add, Option.bind_some]
    have e : min N xs.length = (xs.drop (xs.length - N)).length := by simp; omega
    rw [e, pops_spec]
    rfl
  obtain ⟨q', e⟩ := C142_queue_history (E := E) (mv := mv) hN d h
  exact ⟨q', by simpa [Function.comp_def] using e⟩

example : history (qStep (E := Empty) (qRepairs 2 id dropOldest) 2 id) [.push 4, .push 5, .push 6, .size, .pop, .pop] (CxQueue.init 2 0, 0) =
    .ok (⟨[6, 5], 0, 1, 0⟩, 1) [some (.val 4), some (.val 5), some (.val 6), some (.nat 2), some (.val 5), some (.val 6)] := by decide

/-- A handler that puts a default into the queue on underflow: every `pop` has a result. -/
example : queueRepaired 2 (fun m (k : Nat) => match m with | .underflow => ([.push 9], k + 1) | .overflow => ([], k)) ([] : List Nat) 0
    [.pop, .push 1, .pop, .front] = some ([9], 2, [.val 9, .val 1, .val 1, .val 9]) := rfl

end Verif.Caught
