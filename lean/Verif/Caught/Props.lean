import Verif.Caught.Spec
import Verif.CxQueue.Lemmas
import Verif.IList.Props
import Verif.FList.Props

/-!
# Properties of panic handlers that throw (C141)
-/

namespace Verif.Caught

open Verif.Unwind Verif.Judge

variable {E W B α ι : Type}

/-- A call with a handler, from the outcomes of the same call with the check and a handler that does not return, and without the check. -/
def meets {R : Type} (H : Handler E W) (b : B) (w : W) (checked unchecked : Outcome (B × R × Nat)) : Res E (B × W) R :=
  match checked with
  | .ok x => .ok (x.1, w) x.2.1
  | .ub => .ub
  | .panic =>
    match H w with
    | (w', .error e) => .threw (b, w') e
    | (w', .ok ()) =>
      match unchecked with
      | .ok x => .ok (x.1, w') x.2.1
      | _ => .ub

/-! ## cx_queue -/

theorem arrGet_np {l : List α} {i : Nat} : arrGet l i ≠ .panic := by unfold arrGet; split <;> simp

theorem arrSet_np {l : List α} {i : Nat} {x : α} : arrSet l i x ≠ .panic := by unfold arrSet; split <;> simp

theorem qStep_eq (H : Handler E W) (N : Nat) (mv : α → α) (o : CxQueue.Op α) (q : CxQueue.Queue α) (w : W) :
    qStep (fun _ => panics H) N mv o (q, w) = meets H q w (CxQueue.step ⟨N, .safe, .noreturn, mv⟩ q o) (CxQueue.step ⟨N, .unchecked, .noreturn, mv⟩ q o) := by
  have get : ∀ k, arrGet q.storage k ≠ .panic := fun k => arrGet_np
  have set : ∀ k y, arrSet q.storage k y ≠ .panic := fun k y => arrSet_np
  cases o with
  | size | empty | full | clear => rfl
  | push x =>
    have set := set (if szInc q.pushIndex = N then 0 else szInc q.pushIndex) x
    simp only [qStep, qPush, checkPush, CxQueue.step, CxQueue.push, CxQueue.checkPush, CxQueue.raise]
    by_cases hc : q.size ≥ N
    · simp only [hc, panics, meets, if_true, decide_true]
      rcases H w with ⟨w', _ | ⟨⟩⟩
      · rfl
      · simp only [Res.andThen, need]
        cases arrSet q.storage (if szInc q.pushIndex = N then 0 else szInc q.pushIndex) x <;> rfl
    · simp only [hc, meets, if_false, decide_false, Res.andThen, need]
      cases e : arrSet q.storage (if szInc q.pushIndex = N then 0 else szInc q.pushIndex) x with
      | panic => exact absurd e set
      | _ => rfl
  | pop =>
    have get := get q.popIndex
    simp only [qStep, qPop, checkPop, CxQueue.step, CxQueue.pop, CxQueue.checkPop, CxQueue.raise]
    by_cases hc : q.size ≤ 0
    · simp only [hc, panics, meets, if_true, decide_true]
      rcases H w with ⟨w', _ | ⟨⟩⟩
      · rfl
      · simp only [Res.andThen, need]
        cases arrGet q.storage q.popIndex with
        | ok x => cases e : arrSet q.storage q.popIndex (mv x) <;> simp [e]
        | _ => rfl
    · simp only [hc, meets, if_false, decide_false, Res.andThen, need]
      cases e : arrGet q.storage q.popIndex with
      | panic => exact absurd e get
      | ub => rfl
      | ok x =>
        have set := set q.popIndex (mv x)
        cases e2 : arrSet q.storage q.popIndex (mv x) with
        | panic => exact absurd e2 set
        | _ => simp [e2]
  | front | back =>
    have g1 := get q.popIndex
    have g2 := get q.pushIndex
    simp only [qStep, qFront, qBack, checkPop, CxQueue.step, CxQueue.front, CxQueue.back, CxQueue.checkPop, CxQueue.raise]
    by_cases hc : q.size ≤ 0
    · simp only [hc, panics, meets, if_true, decide_true]
      rcases H w with ⟨w', _ | ⟨⟩⟩
      · rfl
      · simp only [Res.andThen, need]
        first
          | (cases arrGet q.storage q.popIndex <;> rfl)
          | (cases arrGet q.storage q.pushIndex <;> rfl)
    · simp only [hc, meets, if_false, decide_false, Res.andThen, need]
      cases e : arrGet q.storage q.popIndex <;> cases e2 : arrGet q.storage q.pushIndex <;> first | rfl | contradiction
  | setFront x | setBack x =>
    have g1 := set q.popIndex x
    have g2 := set q.pushIndex x
    simp only [qStep, qSetFront, qSetBack, checkPop, CxQueue.step, CxQueue.setFront, CxQueue.setBack, CxQueue.checkPop, CxQueue.raise]
    by_cases hc : q.size ≤ 0
    · simp only [hc, panics, meets, if_true, decide_true]
      rcases H w with ⟨w', _ | ⟨⟩⟩
      · rfl
      · simp only [Res.andThen, need]
        first
          | (cases arrSet q.storage q.popIndex x <;> rfl)
          | (cases arrSet q.storage q.pushIndex x <;> rfl)
    · simp only [hc, meets, if_false, decide_false, Res.andThen, need]
      cases e : arrSet q.storage q.popIndex x <;> cases e2 : arrSet q.storage q.pushIndex x <;> first | rfl | contradiction

/-- **C141, one call on a queue.** Whatever the state of the queue and whatever the handler: if an exception leaves a call it is the one the
handler has thrown, and the queue is as it was before. -/
theorem C141_queue_unchanged {H : Handler E W} {N : Nat} {mv : α → α} {o : CxQueue.Op α} {q q' : CxQueue.Queue α} {w w' : W} {e : E}
    (h : qStep (fun _ => panics H) N mv o (q, w) = .threw (q', w') e) : q' = q ∧ H w = (w', .error e) := by
  rw [qStep_eq] at h
  unfold meets at h
  split at h
  · simp at h
  · simp at h
  · split at h
    · rename_i hw
      simp only [Res.threw.injEq, Prod.mk.injEq] at h
      obtain ⟨⟨rfl, rfl⟩, rfl⟩ := h
      exact ⟨rfl, hw⟩
    · split at h <;> simp at h

theorem history_queue {H : Handler E W} {N : Nat} {mv : α → α} (hN : N < szMod) (ops : List (CxQueue.Op α)) :
    ∀ {q : CxQueue.Queue α} {l : List α} {w : W}, CxQueue.Rep N q l → Throws H (thrown (queueCaught N l ops).2) w →
      ∃ q', history (qStep (fun _ => panics H) N mv) ops (q, w) = .ok (q', after H (thrown (queueCaught N l ops).2) w) (queueCaught N l ops).2 ∧
        CxQueue.Rep N q' (queueCaught N l ops).1 := by
  induction ops with
  | nil => intro q l w hr _; exact ⟨q, rfl, hr⟩
  | cons o os ih =>
    intro q l w hr ht
    cases hs : CxQueue.specStep N l o with
    | none =>
      simp only [queueCaught, hs, thrown, Throws] at ht ⊢
      obtain ⟨⟨e, he⟩, ht⟩ := ht
      have hp := CxQueue.step_panics (c := ⟨N, .safe, .noreturn, mv⟩) rfl rfl hr hs
      obtain ⟨q', e1, hr'⟩ := ih hr ht
      have hst : qStep (fun _ => panics H) N mv o (q, w) = .threw (q, (H w).1) e := by
        rw [qStep_eq, hp]
        simp only [meets]
        rw [show H w = ((H w).1, .error e) from Prod.ext rfl he]
      exact ⟨q', by simp [history, hst, e1, Res.andThen, after], hr'⟩
    | some p =>
      obtain ⟨l', r⟩ := p
      simp only [queueCaught, hs, thrown] at ht ⊢
      obtain ⟨q1, hp, hr1⟩ := CxQueue.step_refines (c := ⟨N, .safe, .noreturn, mv⟩) hN hr hs
      obtain ⟨q', e1, hr'⟩ := ih hr1 ht
      have hst : qStep (fun _ => panics H) N mv o (q, w) = .ok (q1, w) r := by rw [qStep_eq, hp]; rfl
      exact ⟨q', by simp [history, hst, e1, Res.andThen], hr'⟩

/-- **C141, histories of a queue.** Any sequence of calls whatsoever on a queue with the safe policy, with a handler that throws when it is
called and a caller that catches, is defined: every call that the bounded queue allows gives its result, every other one is left by an
exception and has no effect on those that follow, and the handler is called once for each of these and never otherwise. -/
theorem C141_queue_history {H : Handler E W} {N : Nat} {mv : α → α} (hN : N < szMod) (d : α) (ops : List (CxQueue.Op α)) (w : W)
    (ht : Throws H (thrown (queueCaught N [] ops).2) w) :
    ∃ q', history (qStep (fun _ => panics H) N mv) ops (CxQueue.init N d, w) =
      .ok (q', after H (thrown (queueCaught N [] ops).2) w) (queueCaught N [] ops).2 := by
  obtain ⟨q', e, _⟩ := history_queue (mv := mv) hN ops (CxQueue.rep_init N d) ht
  exact ⟨q', e⟩

/-- A handler that throws the number of calls left, and returns when there are none left. -/
def countdown : Handler Nat Nat
  | 0 => (0, .ok ())
  | n + 1 => (n, .error n)

example : queueCaught 1 [] [.push 4, .push 5, .pop, .pop, .back, .push 6, .front] =
    ([6], [some (CxQueue.Out.val 4), none, some (.val 4), none, none, some (.val 6), some (.val 6)]) := rfl

example : Throws countdown (thrown (queueCaught 1 [] [.push 4, .push 5, .pop, .pop, .back, .push 6, .front]).2) 3 :=
  ⟨⟨2, rfl⟩, ⟨1, rfl⟩, ⟨0, rfl⟩, trivial⟩

example : history (qStep (fun _ => panics countdown) 1 id) [.push 4, .push 5, .pop, .pop] (CxQueue.init 1 0, 3) =
    .ok (⟨[4], 0, 0, 0⟩, 1) [some (.val 4), none, some (.val 4), none] := by decide

end Verif.Caught
