import Verif.Atomic.Props
import Verif.Conc.OrderComplete

/-!
# `atomic` under any memory orders (C40)
-/

namespace Verif.Atomic

open Verif.Conc

/-- **C40 for every memory order.** Whatever memory orders the operations are given, in every execution the operations can
be put in one order that agrees with each thread's own, each changing the value as specified and returning the value just before
it or just after it.  For signed types this is under the condition that no thread has been stopped by overflow. -/
theorem C40_any_memory_order (C : Cfg) (hwe : C.w ≤ C.e) (progs : List (List (Op C.w))) (v0 : BitVec C.w)
    (m : Nat) (val : Nat → BitVec C.e) (accs : List (List Acc)) (ends : List (Prog C.e (List (Option (BitVec C.w)))))
    (hx : Execution (progs.map (fun ops => threadProg (impl C) ops [])) (init C v0) m val accs ends)
    (hsafe : (C.tSigned = false ∧ C.eSigned = false) ∨ ∀ t : Nat, ends[t]? ≠ some .ub) :
    ∃ h : List (Event (Op C.w) (Option (BitVec C.w))), History progs v0 h ⟨val m, ends⟩ := by
  obtain ⟨sched, _, hr⟩ := Execution.scheduled _ (Nat.le_refl _) hx
  obtain ⟨h, _, h2⟩ := C40_atomic_linearizable C hwe progs v0 sched ⟨val m, ends⟩ hr hsafe
  exact ⟨h, h2⟩

/-- **C40, tickets, for every memory order.** If threads only add one, at most `2^w` times in total, the last value is the
initial one plus the number of operations, and the values handed out by operations that return the old value are pairwise
distinct; so are those that return the new value. -/
theorem C40_tickets_any_memory_order (C : Cfg) (hwe : C.w ≤ C.e) (progs : List (List (Op C.w))) (c0 : BitVec C.w)
    (m : Nat) (val : Nat → BitVec C.e) (accs : List (List Acc)) (ends : List (Prog C.e (List (Option (BitVec C.w)))))
    (hx : Execution (progs.map (fun ops => threadProg (impl C) ops [])) (init C c0) m val accs ends)
    (hsafe : (C.tSigned = false ∧ C.eSigned = false) ∨ ∀ t : Nat, ends[t]? ≠ some .ub)
    (hinc : ∀ ops ∈ progs, ∀ op ∈ ops, op.isInc) (hcount : (accs.map List.length).sum ≤ 2 ^ C.w) :
    (val m).setWidth C.w = c0 + BitVec.ofNat C.w (accs.map List.length).sum ∧
    ∃ h : List (Event (Op C.w) (Option (BitVec C.w))), History progs c0 h ⟨val m, ends⟩ ∧
      ∀ old : Bool, ((h.filter (fun e => e.op.returnsOld == some old)).map (·.res)).Nodup ∧
        (∀ t t', t ≠ t' → ∀ e ∈ h, ∀ e' ∈ h, e.tid = t → e'.tid = t' → e.op.returnsOld = some old →
          e'.op.returnsOld = some old → e.res ≠ e'.res) := by
  obtain ⟨sched, hl, hr⟩ := Execution.scheduled _ (Nat.le_refl _) hx
  have := C40_atomic_tickets C hwe progs c0 sched ⟨val m, ends⟩ hr hsafe hinc (by rw [hl]; exact hcount)
  rw [hl] at this
  exact this

/-- **C40, sums, for every memory order.** If threads only add and subtract and all of them finish, the last value is the
initial one plus the sum of all amounts. -/
theorem C40_sum_any_memory_order (C : Cfg) (hwe : C.w ≤ C.e) (progs : List (List (Op C.w))) (c0 : BitVec C.w)
    (m : Nat) (val : Nat → BitVec C.e) (accs : List (List Acc)) (ends : List (Prog C.e (List (Option (BitVec C.w)))))
    (hx : Execution (progs.map (fun ops => threadProg (impl C) ops [])) (init C c0) m val accs ends)
    (hsafe : (C.tSigned = false ∧ C.eSigned = false) ∨ ∀ t : Nat, ends[t]? ≠ some .ub)
    (d : Op C.w → BitVec C.w) (hd : ∀ ops ∈ progs, ∀ op ∈ ops, op.delta = some (d op))
    (hdone : ∀ t < progs.length, ∃ rs, ends[t]? = some (.ret rs)) :
    (val m).setWidth C.w = c0 + (progs.map (fun ops => (ops.map d).sum)).sum := by
  obtain ⟨sched, _, hr⟩ := Execution.scheduled _ (Nat.le_refl _) hx
  exact C40_atomic_sum C hwe progs c0 sched ⟨val m, ends⟩ hr hsafe d hd hdone

/-- **C40, the memory orders leave out no interleaving.** Every interleaving of the threads' steps is one of the executions that the
theorems for every memory order speak of. -/
theorem C40_interleavings_are_executions (C : Cfg) (progs : List (List (Op C.w))) (v0 : BitVec C.w) (sched : List Nat)
    (s : Sys C.e (List (Option (BitVec C.w)))) (hr : (start (impl C) progs (init C v0)).run sched = some s) :
    ∃ m val accs, Execution (progs.map (fun ops => threadProg (impl C) ops [])) (init C v0) m val accs s.threads ∧
      val m = s.cell ∧ (accs.map List.length).sum = sched.length :=
  Execution.of_schedule _ _ _ sched s rfl hr

example : ∃ s, (start (impl sampleCfg) [[.load, .load], [.postInc]] (init sampleCfg 254#8)).run [0, 1, 0] = some s :=
  ⟨_, rfl⟩

/-- Two threads take tickets from an 8-bit counter stored in 32 bits; the first thread's second comes after the other's. -/
example : ∃ q0 q1, Execution ([[.postInc, .postInc], [.fetchAdd 1#8]].map (fun ops => threadProg (impl sampleCfg) ops []))
    (init sampleCfg 254#8) 3 (fun n => [254#32, 255#32, 256#32, 257#32].getD n 0#32) [[.write 0, .write 2], [.write 1]]
    [.ret q0, .ret q1] ∧ q0 = [some 254#8, some 0#8] ∧ q1 = [some 255#8] := by
  refine ⟨_, _, ⟨rfl, rfl, rfl, ?_, ?_, ?_, ?_, ?_⟩, rfl, rfl⟩
  · intro t p as q hp ha hq
    match t with
    | 0 =>
      simp only [List.map_cons, List.getElem?_cons_zero, Option.some.injEq] at hp ha hq
      subst hp ha hq
      refine .cons _ _ _ _ _ ?_ ?_ (.cons _ _ _ _ _ ?_ ?_ (.nil _)) <;> intro j hj <;> cases hj <;> rfl
    | 1 =>
      simp only [List.map_cons, List.getElem?_cons_zero, List.getElem?_cons_succ, Option.some.injEq] at hp ha hq
      subst hp ha hq
      refine .cons _ _ _ _ _ ?_ ?_ (.nil _) <;> intro j hj <;> cases hj <;> rfl
    | n + 2 => simp at hp
  · simp
  · intro j hj
    have : j = 0 ∨ j = 1 ∨ j = 2 := by omega
    rcases this with rfl | rfl | rfl <;> simp
  · intro t t' i i' as as' j h1 h2 h3 h4
    have hmem : ∀ (t i : Nat) as, [[Acc.write 0, .write 2], [.write 1]][t]? = some as → as[i]? = some (Acc.write j) →
        (t = 0 ∧ i = 0 ∧ j = 0) ∨ (t = 0 ∧ i = 1 ∧ j = 2) ∨ (t = 1 ∧ i = 0 ∧ j = 1) := by
      intro t i as h1 h2
      match t with
      | 0 =>
        simp only [List.getElem?_cons_zero, Option.some.injEq] at h1
        subst h1
        match i with
        | 0 => simp at h2; omega
        | 1 => simp at h2; omega
        | n + 2 => simp at h2
      | 1 =>
        simp only [List.getElem?_cons_succ, List.getElem?_cons_zero, Option.some.injEq] at h1
        subst h1
        match i with
        | 0 => simp at h2; omega
        | n + 1 => simp at h2
      | n + 2 => simp at h1
    have := hmem t i as h1 h3
    have := hmem t' i' as' h2 h4
    omega
  · simp [Coherent]

end Verif.Atomic
