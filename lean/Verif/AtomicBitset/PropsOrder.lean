import Verif.AtomicBitset.Props
import Verif.Conc.OrderComplete

/-!
# `atomic_bitset` under any memory orders (C38, C39)
-/

namespace Verif.AtomicBitset

open Verif.Conc Verif.Bitset Verif.BitMask Verif.BitOps

/-- **C38 for every memory order.** Whatever memory orders the operations are given, in every execution the operations can
be put in one order that agrees with each thread's own: every position below `N` of the final value is what the
operations give in that order; every operation that returns a previous value returns the set just before it; each thread has
performed a prefix of its operations and holds the corresponding results, and is not undefined or blocked. -/
theorem C38_any_memory_order {w N : Nat} (hw : StdWidth w) (hN : 0 < N) (hNw : N ≤ w)
    (progs : List (List (Op w))) (hlegal : ∀ ops ∈ progs, ∀ op ∈ ops, op.Legal N) (c0 : BitVec w)
    (m : Nat) (val : Nat → BitVec w) (accs : List (List Acc)) (ends : List (Prog w (List (Option (Words w)))))
    (hx : Execution (progs.map (fun ops => threadProg (impl N) ops [])) c0 m val accs ends) :
    ∃ h : List (Event (Op w) (Option (Words w))),
      (∀ e ∈ h, e.tid < progs.length) ∧
      (∀ i, i < N → (val m).getLsbD i = setAfter h c0.getLsbD i) ∧
      (∀ pre e post, h = pre ++ e :: post →
        if e.op.returnsPrev then ∃ b, e.res = some b ∧ b.length = storageSize w N ∧
          ∀ i, i < N → Bitset.get b i = .ok (setAfter pre c0.getLsbD i)
        else e.res = none) ∧
      (∀ t ops, progs[t]? = some ops → ∃ rest, ops = opsOf h t ++ rest ∧
        (rest ≠ [] → ∃ f k, ends[t]? = some (.atomically f k)) ∧
        (rest = [] ↔ ends[t]? = some (.ret (resOf h t)))) := by
  obtain ⟨sched, _, hr⟩ := Execution.scheduled _ (Nat.le_refl _) hx
  obtain ⟨h, _, h2, h3, h4, h5⟩ := C38_atomic_bitset_linearizable hw hN hNw progs hlegal c0 sched ⟨val m, ends⟩ hr
  refine ⟨h, h2, h3, h4, fun t ops ht => ?_⟩
  obtain ⟨rest, h6, h7, h8⟩ := h5 t ops ht
  refine ⟨rest, h6, fun hne => ?_, h8⟩
  have h9 := h7 hne
  cases h10 : ends[t]? with
  | none => simp [Sys.step, h10] at h9
  | some p =>
    cases p with
    | ret a => simp [Sys.step, h10] at h9
    | ub => simp [Sys.step, h10] at h9
    | atomically f k => exact ⟨f, k, rfl⟩

/-- **C38, determinacy, for every memory order.** If only one thread touches a position and that thread has finished, the
value of the position is what that thread's own operations give. -/
theorem C38_disjoint_any_memory_order {w N : Nat} (hw : StdWidth w) (hN : 0 < N) (hNw : N ≤ w)
    (progs : List (List (Op w))) (hlegal : ∀ ops ∈ progs, ∀ op ∈ ops, op.Legal N) (c0 : BitVec w)
    (m : Nat) (val : Nat → BitVec w) (accs : List (List Acc)) (ends : List (Prog w (List (Option (Words w)))))
    (hx : Execution (progs.map (fun ops => threadProg (impl N) ops [])) c0 m val accs ends)
    (i t : Nat) (hi : i < N) (ops : List (Op w)) (ht : progs[t]? = some ops)
    (hother : ∀ u, u ≠ t → ∀ ops', progs[u]? = some ops' → ∀ op ∈ ops', op.effect i = none)
    (hdone : ∃ rs, ends[t]? = some (.ret rs)) :
    (val m).getLsbD i = (ops.filterMap (Op.effect i)).foldl (fun b f => f b) (c0.getLsbD i) := by
  obtain ⟨sched, _, hr⟩ := Execution.scheduled _ (Nat.le_refl _) hx
  exact C38_atomic_bitset_disjoint hw hN hNw progs hlegal c0 sched ⟨val m, ends⟩ hr i t hi ops ht hother hdone

/-- **C39 for every memory order.** If position `i` is clear at the start and only `set(i)` touches it, exactly one of the
`set(i)` that have happened returns a previous value with position `i` clear. -/
theorem C39_any_memory_order {w N : Nat} (hw : StdWidth w) (hN : 0 < N) (hNw : N ≤ w)
    (progs : List (List (Op w))) (hlegal : ∀ ops ∈ progs, ∀ op ∈ ops, op.Legal N) (c0 : BitVec w)
    (m : Nat) (val : Nat → BitVec w) (accs : List (List Acc)) (ends : List (Prog w (List (Option (Words w)))))
    (hx : Execution (progs.map (fun ops => threadProg (impl N) ops [])) c0 m val accs ends)
    (i : Nat) (hi : i < N) (hclear : c0.getLsbD i = false)
    (honly : ∀ ops ∈ progs, ∀ op ∈ ops, op = .set i true ∨ op.effect i = none) :
    ∃ h : List (Event (Op w) (Option (Words w))),
      (∀ t ops, progs[t]? = some ops → ∃ rest, ops = opsOf h t ++ rest ∧
        (rest = [] ↔ ends[t]? = some (.ret (resOf h t)))) ∧
      ((∃ e ∈ h, e.op = .set i true) → ∃ pre e post, h = pre ++ e :: post ∧ e.op = .set i true ∧
        (∀ e' ∈ pre, e'.op ≠ .set i true) ∧
        (∃ b, e.res = some b ∧ Bitset.get b i = .ok false) ∧
        (∀ e' ∈ post, e'.op = .set i true → ∃ b, e'.res = some b ∧ Bitset.get b i = .ok true)) := by
  obtain ⟨sched, _, hr⟩ := Execution.scheduled _ (Nat.le_refl _) hx
  obtain ⟨h, _, h2, h3⟩ := C39_atomic_bitset_test_and_set hw hN hNw progs hlegal c0 sched ⟨val m, ends⟩ hr i hi hclear honly
  exact ⟨h, h2, h3⟩

/-- **C38, the memory orders leave out no interleaving.** Every interleaving of the threads' steps is one of the executions that the
theorems for every memory order speak of. -/
theorem C38_interleavings_are_executions {w : Nat} (N : Nat) (progs : List (List (Op w))) (c0 : BitVec w) (sched : List Nat)
    (s : Sys w (List (Option (Words w)))) (hr : (start (impl N) progs c0).run sched = some s) :
    ∃ m val accs, Execution (progs.map (fun ops => threadProg (impl N) ops [])) c0 m val accs s.threads ∧
      val m = s.cell ∧ (accs.map List.length).sum = sched.length :=
  Execution.of_schedule _ _ _ sched s rfl hr

example : ∃ s, (start (impl (w := 8) 5) [[.load, .load], [.flip 1]] 16#8).run [0, 1, 0] = some s := ⟨_, rfl⟩

/-- Two threads of a bitset of 5: the second's load reads the initial value, then its `flip(1)` comes between the first's two
operations. -/
example : Execution ([[.set 1 true, .reset 4], [.load, .flip 1]].map (fun ops => threadProg (impl (w := 8) 5) ops []))
    16#8 3 (fun n => [16#8, 18#8, 16#8, 0#8].getD n 0#8) [[.write 0, .write 2], [.read 0, .write 1]] 
    [.ret [some [16#8], some [16#8]], .ret [some [16#8], some [18#8]]] := by
  refine ⟨rfl, rfl, rfl, ?_, ?_, ?_, ?_, ?_⟩
  · intro t p as q hp ha hq
    match t with
    | 0 =>
      simp only [List.map_cons, List.getElem?_cons_zero, Option.some.injEq] at hp ha hq
      subst hp ha hq
      refine .cons _ _ _ _ _ ?_ ?_ (.cons _ _ _ _ _ ?_ ?_ (.nil _)) <;> intro j hj <;> cases hj <;> rfl
    | 1 =>
      simp only [List.map_cons, List.getElem?_cons_zero, List.getElem?_cons_succ, Option.some.injEq] at hp ha hq
      subst hp ha hq
      refine .cons _ _ _ _ _ ?_ ?_ (.cons _ _ _ _ _ ?_ ?_ (.nil _)) <;> intro j hj <;> cases hj
      · intro c; rfl
      · rfl
    | n + 2 => simp at hp
  · simp
  · intro j hj
    have : j = 0 ∨ j = 1 ∨ j = 2 := by omega
    rcases this with rfl | rfl | rfl <;> simp
  · intro t t' i i' as as' j h1 h2 h3 h4
    have hmem : ∀ (t i : Nat) as, [[Acc.write 0, .write 2], [.read 0, .write 1]][t]? = some as → as[i]? = some (Acc.write j) →
        (t = 0 ∧ i = 0 ∧ j = 0) ∨ (t = 0 ∧ i = 1 ∧ j = 2) ∨ (t = 1 ∧ i = 1 ∧ j = 1) := by
      intro t i as h1 h2
      match t with
      | 0 =>
        simp only [List.getElem?_cons_zero, Option.some.injEq] at h1
        subst h1
        match i with
        | 0 => simp at h2; omega
        | 1 => simp at h2; omega
        | n + 2 => simp at h2
      | 1 =>
        simp only [List.getElem?_cons_succ, List.getElem?_cons_zero, Option.some.injEq] at h1
        subst h1
        match i with
        | 0 => simp at h2
        | 1 => simp at h2; omega
        | n + 2 => simp at h2
      | n + 2 => simp at h1
    have := hmem t i as h1 h3
    have := hmem t' i' as' h2 h4
    omega
  · simp [Coherent]

end Verif.AtomicBitset
