import Verif.CxQueue.Lemmas

/-!
# Properties of `stdx::cx_queue`  (C24, C25)
-/

namespace Verif.CxQueue

/-- A sample configuration used by the examples. -/
def demoCfg : Cfg Nat := { N := 3, policy := .safe, handler := .noreturn, mv := fun _ => 0 }

/-- A history that fills, wraps around and drains a queue of capacity 3. -/
def demoOps : List (Op Nat) :=
  [.push 1, .push 2, .pop, .push 3, .push 4, .full, .front, .back, .setBack 9, .pop, .push 5,
   .size, .pop, .pop, .pop, .empty]

/-- **C24.** For every capacity, element type, policy, panic handler and operation history
that respects the documented preconditions, `cx_queue` answers exactly like a FIFO list,
never has undefined behaviour and never calls the panic handler. -/
theorem C24_cx_queue_refines_fifo {α : Type} (c : Cfg α) (d : α) (hN : c.N < szMod)
    (ops : List (Op α)) (l : List α) (rs : List (Out α))
    (h : specRun c.N [] ops = some (l, rs)) :
    ∃ q', run c (init c.N d) ops = .ok (q', rs, 0) ∧ q'.size = l.length ∧ l.length ≤ c.N := by
  obtain ⟨q', e, hr⟩ := run_refines hN ops (rep_init c.N d) h
  exact ⟨q', e, hr.size, hr.le⟩

example : specRun 3 [] demoOps = some ([], [.val 1, .val 2, .val 1, .val 3, .val 4, .bool true,
    .val 2, .val 4, .unit, .val 2, .val 5, .nat 3, .val 3, .val 9, .val 5, .bool true]) := by
  decide

/-- The values given to `push`, in order. -/
def pushed {α : Type} : List (Op α) → List α
  | [] => []
  | .push x :: os => x :: pushed os
  | _ :: os => pushed os

/-- The values returned by `pop`, in order. -/
def popped {α : Type} : List (Op α) → List (Out α) → List α
  | .pop :: os, .val x :: rs => x :: popped os rs
  | _ :: os, _ :: rs => popped os rs
  | _, _ => []

/-- Operations that neither clear the queue nor overwrite an element in place. -/
def Op.plain {α : Type} : Op α → Bool
  | .clear => false
  | .setFront _ => false
  | .setBack _ => false
  | _ => true

/-- The FIFO law of the specification: what was popped, followed by what is still stored,
is what was stored followed by what was pushed. -/
theorem spec_fifo {α : Type} (N : Nat) (ops : List (Op α)) :
    ∀ (l l' : List α) (rs : List (Out α)), (∀ o ∈ ops, o.plain = true) →
      specRun N l ops = some (l', rs) → popped ops rs ++ l' = l ++ pushed ops := by
  induction ops with
  | nil => intro l l' rs _ h; simp [specRun] at h; simp [popped, pushed, h]
  | cons o os ih =>
    intro l l' rs hpl hs
    simp only [specRun] at hs
    cases e1 : specStep N l o with
    | none => simp [e1] at hs
    | some p =>
      obtain ⟨l1, r1⟩ := p
      simp only [e1] at hs
      cases e2 : specRun N l1 os with
      | none => simp [e2] at hs
      | some p2 =>
        obtain ⟨l2, r2⟩ := p2
        simp only [e2, Option.some.injEq, Prod.mk.injEq] at hs
        obtain ⟨rfl, rfl⟩ := hs
        have ih' := ih l1 l2 r2 (fun o ho => hpl o (List.mem_cons_of_mem _ ho)) e2
        have hp := hpl o List.mem_cons_self
        cases o <;> simp_all [specStep, popped, pushed, Op.plain]
        · rw [← e1.2.1]; simp
        · split at e1
          · simp at e1
          · simp at e1; obtain ⟨rfl, rfl⟩ := e1; simp [popped, ih']
        · split at e1
          · simp at e1
          · simp at e1; simp [← e1.1]
        · obtain ⟨a, _, h2⟩ := e1; simp [h2.1]

/-- **C24 (order).** In a history without `clear` and in-place overwrites, the sequence of
popped values followed by the remaining contents is exactly the sequence of pushed values:
nothing is lost, duplicated or reordered, through any number of wrap-arounds. -/
theorem C24_cx_queue_fifo_order {α : Type} (c : Cfg α) (d : α) (hN : c.N < szMod)
    (ops : List (Op α)) (l : List α) (rs : List (Out α)) (hp : ∀ o ∈ ops, o.plain = true)
    (h : specRun c.N [] ops = some (l, rs)) :
    ∃ q', run c (init c.N d) ops = .ok (q', rs, 0) ∧ popped ops rs ++ l = pushed ops := by
  obtain ⟨q', e, _⟩ := C24_cx_queue_refines_fifo c d hN ops l rs h
  exact ⟨q', e, by simpa using spec_fifo c.N ops [] l rs hp h⟩

example : (∀ o ∈ ([.push 1, .push 2, .pop, .push 3, .push 4, .pop] : List (Op Nat)),
    o.plain = true) ∧ (specRun 3 [] ([.push 1, .push 2, .pop, .push 3, .push 4, .pop] :
      List (Op Nat))).isSome := by
  decide

/-- **C25 (never undefined).** With the safe policy and a panic handler that does not
return, every history ends either normally with the FIFO answers or in the panic handler,
and it ends in the handler exactly when it violates a precondition. There is no undefined
behaviour. -/
theorem C25_cx_queue_safe_policy_partial {α : Type} (c : Cfg α) (d : α) (hN : c.N < szMod)
    (hp : c.policy = .safe) (hh : c.handler = .noreturn) (ops : List (Op α)) :
    (specRun c.N [] ops = none ↔ run c (init c.N d) ops = .panic) ∧
    run c (init c.N d) ops ≠ .ub := by
  cases e : specRun c.N [] ops with
  | none =>
    have := run_panics hN hp hh ops (rep_init c.N d) e
    simp [this]
  | some p =>
    obtain ⟨l, rs⟩ := p
    obtain ⟨q', e', _⟩ := C24_cx_queue_refines_fifo c d hN ops l rs e
    simp [e']

example : run demoCfg (init 3 7) [.push 1, .push 2, .push 3, .push 4] = .panic ∧
    run demoCfg (init 3 7) [.push 1, .pop, .back] = .panic := by decide

/-- Operations for which `check_pop` guards the access. -/
def Op.needsElement {α : Type} : Op α → Bool
  | .pop => true
  | .front => true
  | .back => true
  | .setFront _ => true
  | .setBack _ => true
  | _ => false

/-- **C25 (decision).** In any state whatsoever (reachable or not), with the safe policy and
a handler that does not return, the handler is entered exactly by a push when `size() >= N`
and by pop/front/back when `size() == 0`; the check precedes every access to the storage. -/
theorem C25_cx_queue_panic_iff_partial {α : Type} (c : Cfg α) (q : Queue α) (o : Op α)
    (hp : c.policy = .safe) (hh : c.handler = .noreturn) :
    step c q o = .panic ↔
      ((∃ x, o = .push x) ∧ c.N ≤ q.size) ∨ (o.needsElement = true ∧ q.size = 0) := by
  have hput : ∀ (a : List α) (i : Nat) (x : α), arrSet a i x ≠ .panic := by
    intro a i x; unfold arrSet; split <;> simp
  have hget : ∀ (a : List α) (i : Nat), arrGet a i ≠ .panic := by
    intro a i; unfold arrGet; split <;> simp
  cases o with
  | push x =>
    by_cases h : c.N ≤ q.size
    · simp [step, push, checkPush, raise, hp, hh, h]
    · simp only [step, push, checkPush, raise, hp, hh, h, ge_iff_le, decide_false,
        Bool.false_eq_true, ↓reduceIte, Outcome.ok_bind, Op.needsElement]
      generalize (if szInc q.pushIndex = c.N then 0 else szInc q.pushIndex) = i
      have := hput q.storage i x
      cases e : arrSet q.storage i x <;> simp_all
  | pop =>
    by_cases h : q.size = 0
    · simp [step, pop, checkPop, raise, hp, hh, h, Op.needsElement]
    · simp only [step, pop, checkPop, raise, hp, hh, h, Nat.le_zero_eq, decide_false,
        Bool.false_eq_true, ↓reduceIte, Outcome.ok_bind, Op.needsElement]
      have := hget q.storage q.popIndex
      cases e : arrGet q.storage q.popIndex <;> simp_all
      rename_i x
      have := hput q.storage q.popIndex (c.mv x)
      cases e : arrSet q.storage q.popIndex (c.mv x) <;> simp_all
  | front =>
    by_cases h : q.size = 0
    · simp [step, front, checkPop, raise, hp, hh, h, Op.needsElement]
    · simp only [step, front, checkPop, raise, hp, hh, h, Nat.le_zero_eq, decide_false,
        Bool.false_eq_true, ↓reduceIte, Outcome.ok_bind, Op.needsElement]
      have := hget q.storage q.popIndex
      cases e : arrGet q.storage q.popIndex <;> simp_all
  | back =>
    by_cases h : q.size = 0
    · simp [step, back, checkPop, raise, hp, hh, h, Op.needsElement]
    · simp only [step, back, checkPop, raise, hp, hh, h, Nat.le_zero_eq, decide_false,
        Bool.false_eq_true, ↓reduceIte, Outcome.ok_bind, Op.needsElement]
      have := hget q.storage q.pushIndex
      cases e : arrGet q.storage q.pushIndex <;> simp_all
  | setFront y =>
    by_cases h : q.size = 0
    · simp [step, setFront, checkPop, raise, hp, hh, h, Op.needsElement]
    · simp only [step, setFront, checkPop, raise, hp, hh, h, Nat.le_zero_eq, decide_false,
        Bool.false_eq_true, ↓reduceIte, Outcome.ok_bind, Op.needsElement]
      have := hput q.storage q.popIndex y
      cases e : arrSet q.storage q.popIndex y <;> simp_all
  | setBack y =>
    by_cases h : q.size = 0
    · simp [step, setBack, checkPop, raise, hp, hh, h, Op.needsElement]
    · simp only [step, setBack, checkPop, raise, hp, hh, h, Nat.le_zero_eq, decide_false,
        Bool.false_eq_true, ↓reduceIte, Outcome.ok_bind, Op.needsElement]
      have := hput q.storage q.pushIndex y
      cases e : arrSet q.storage q.pushIndex y <;> simp_all
  | size => simp [step, Op.needsElement]
  | empty => simp [step, Op.needsElement]
  | full => simp [step, Op.needsElement]
  | clear => simp [step, Op.needsElement]

example : step demoCfg (init 3 7) .pop = .panic ∧ step demoCfg (init 3 7) (.push 1) ≠ .panic := by
  decide

/-- **C25 (returning handler, push).** With a panic handler that returns (the default one
does), pushing onto a full queue reports once and then overwrites the oldest element: the
next `front()` is the new element and `size()` has left the documented range. -/
theorem C25_returning_handler_push_overwrites {α : Type} (c : Cfg α) (d x : α)
    (hN : c.N + 1 < szMod) (hp : c.policy = .safe) (hh : c.handler = .returns)
    (ops : List (Op α)) (l : List α) (rs : List (Out α))
    (h : specRun c.N [] ops = some (l, rs)) (hfull : l.length = c.N) (hpos : 0 < c.N) :
    ∃ q q', run c (init c.N d) ops = .ok (q, rs, 0) ∧ push c q x = .ok (q', 1) ∧
      q'.size = c.N + 1 ∧ front c q' = .ok (x, 0) := by
  have hN' : c.N < szMod := by omega
  obtain ⟨q, e, hr⟩ := run_refines hN' ops (rep_init c.N d) h
  obtain ⟨h1, h2, h3, h4, h4', h5, h6⟩ := hr
  have hpl := h4 hpos
  have hidx : (if szInc q.pushIndex = c.N then 0 else szInc q.pushIndex) = q.popIndex := by
    have h5' : q.pushIndex = if q.popIndex = 0 then c.N - 1 else q.popIndex - 1 := by
      rw [h5, hfull]; clear h6 h5; grind
    have h5'' : q.pushIndex < c.N := by rw [h5']; split <;> omega
    rw [szInc_of_lt (n := c.N) h5'' hN', h5']
    clear h6 h5; grind
  have hs : szInc q.size = c.N + 1 := by
    rw [h2, hfull]; exact szInc_of_lt (Nat.lt_succ_self _) hN
  refine ⟨q, ⟨q.storage.set q.popIndex x, q.popIndex, q.popIndex, c.N + 1⟩, e, ?_, rfl, ?_⟩
  · simp only [push, checkPush, raise, hp, hh, h2, hfull, hidx, ge_iff_le, Nat.le_refl,
      decide_true, ↓reduceIte, Outcome.ok_bind]
    rw [arrSet_of_lt (by omega)]
    rw [h2, hfull] at hs
    simp [hs]
  · have : arrGet (q.storage.set q.popIndex x) q.popIndex = .ok x := by
      rw [arrGet_ok]; simp [h1, hpl]
    simp [front, checkPop, raise, hp, this]

example : specRun 3 [] ([.push 1, .push 2, .push 3] : List (Op Nat)) =
    some ([1, 2, 3], [.val 1, .val 2, .val 3]) := by decide

/-- **C25 (returning handler, pop).** With the default (returning) handler the first
underflow is reported, but it leaves `size()` at `2^64 - 1`, so the following underflow is
not reported at all: the safe policy protects nothing unless the handler does not return. -/
theorem C25_returning_handler_underflow_unreported :
    ∃ (c : Cfg Nat) (q1 q2 : Queue Nat), c.policy = .safe ∧ c.handler = .returns ∧
      pop c (init c.N 7) = .ok ((q1, 7), 1) ∧ pop c q1 = .ok ((q2, 7), 0) := by
  refine ⟨{ N := 3, policy := .safe, handler := .returns, mv := id },
    { storage := [7, 7, 7], pushIndex := 2, popIndex := 1, size := 18446744073709551615 },
    { storage := [7, 7, 7], pushIndex := 2, popIndex := 2, size := 18446744073709551614 },
    rfl, rfl, ?_, ?_⟩ <;> decide

/-- How a user counts: what an operation does to `size()`, and how often it reports. -/
def sizeStep {α : Type} (N n : Nat) : Op α → Nat × Nat
  | .push _ => ((n + 1) % 2 ^ 64, if N ≤ n then 1 else 0)
  | .pop => ((n + (2 ^ 64 - 1)) % 2 ^ 64, if n = 0 then 1 else 0)
  | .front => (n, if n = 0 then 1 else 0)
  | .back => (n, if n = 0 then 1 else 0)
  | .setFront _ => (n, if n = 0 then 1 else 0)
  | .setBack _ => (n, if n = 0 then 1 else 0)
  | .clear => (0, 0)
  | _ => (n, 0)

/-- The reports of a history, and `size()` after it. -/
def reports {α : Type} (N : Nat) : Nat → List (Op α) → Nat × Nat
  | n, [] => (n, 0)
  | n, o :: os => ((reports N (sizeStep N n o).1 os).1, (sizeStep N n o).2 + (reports N (sizeStep N n o).1 os).2)

/-- **C25 (returning handler, histories).** With a handler that returns, every history whatsoever on a queue of positive capacity
stays inside the storage; the handler is called once for each push with `size() >= N` and for each access with `size() == 0`, and
never otherwise, where `size()` counts pushes and pops modulo `2^64`. -/
theorem C25_returning_handler_history {α : Type} (c : Cfg α) (d : α) (hpos : 0 < c.N) (hN : c.N < szMod)
    (hp : c.policy = .safe) (hh : c.handler = .returns) (ops : List (Op α)) :
    ∃ q' rs, run c (init c.N d) ops = .ok (q', rs, (reports c.N 0 ops).2) ∧ q'.size = (reports c.N 0 ops).1 ∧
      rs.length = ops.length := by
  have hm : szMod = 2 ^ 64 := by decide
  have key : ∀ (ops : List (Op α)) (q : Queue α), q.storage.length = c.N → q.pushIndex < c.N → q.popIndex < c.N → q.size < szMod →
      ∃ q' rs, run c q ops = .ok (q', rs, (reports c.N q.size ops).2) ∧ q'.size = (reports c.N q.size ops).1 ∧
        rs.length = ops.length := by
    intro ops
    induction ops with
    | nil => intro q _ _ _ _; exact ⟨q, [], rfl, rfl, rfl⟩
    | cons o os ih =>
      intro q h1 h2 h3 h4
      have step1 : ∃ q1 r, step c q o = .ok (q1, r, (sizeStep c.N q.size o).2) ∧ q1.size = (sizeStep c.N q.size o).1 ∧
          q1.storage.length = c.N ∧ q1.pushIndex < c.N ∧ q1.popIndex < c.N ∧ q1.size < szMod := by
        have hg : ∀ i, i < c.N → ∃ x, arrGet q.storage i = .ok x := fun i hi => by
          have hi' : i < q.storage.length := by omega
          exact ⟨q.storage[i], by rw [arrGet_ok]; simp [hi']⟩
        have hs : ∀ i x, i < c.N → arrSet q.storage i x = .ok (q.storage.set i x) := fun i x hi => arrSet_of_lt (by omega)
        have hinc : ∀ i, i < c.N → (if szInc i = c.N then 0 else szInc i) < c.N := fun i hi => by
          rw [szInc_of_lt (n := c.N) hi hN]
          split <;> omega
        have hmod : ∀ x : Nat, x % 2 ^ 64 < szMod := fun x => by rw [hm]; exact Nat.mod_lt _ (by decide)
        have e1 : szInc q.size = (q.size + 1) % 2 ^ 64 := szInc_mod h4
        have e2 : szDec q.size = (q.size + (2 ^ 64 - 1)) % 2 ^ 64 := szDec_mod h4
        obtain ⟨x, hx⟩ := hg _ h3
        obtain ⟨y, hy⟩ := hg _ h2
        cases o with
        | push v =>
          refine ⟨{ q with storage := q.storage.set (if szInc q.pushIndex = c.N then 0 else szInc q.pushIndex) v
                           pushIndex := if szInc q.pushIndex = c.N then 0 else szInc q.pushIndex
                           size := szInc q.size }, .val v, ?_, e1, by simp [h1], hinc _ h2, h3, by simp only [e1]; exact hmod _⟩
          by_cases h : c.N ≤ q.size <;>
            simp [step, push, checkPush, raise, hp, hh, h, hs _ v (hinc _ h2), sizeStep]
        | pop =>
          refine ⟨{ q with storage := q.storage.set q.popIndex (c.mv x)
                           popIndex := if szInc q.popIndex = c.N then 0 else szInc q.popIndex
                           size := szDec q.size }, .val x, ?_, e2, by simp [h1], h2, hinc _ h3, by simp only [e2]; exact hmod _⟩
          by_cases h : q.size = 0 <;>
            simp [step, pop, checkPop, raise, hp, hh, h, hx, hs _ (c.mv x) h3, sizeStep]
        | front =>
          refine ⟨q, .val x, ?_, rfl, h1, h2, h3, h4⟩
          by_cases h : q.size = 0 <;> simp [step, front, checkPop, raise, hp, hh, h, hx, sizeStep]
        | back =>
          refine ⟨q, .val y, ?_, rfl, h1, h2, h3, h4⟩
          by_cases h : q.size = 0 <;> simp [step, back, checkPop, raise, hp, hh, h, hy, sizeStep]
        | setFront v =>
          refine ⟨{ q with storage := q.storage.set q.popIndex v }, .unit, ?_, rfl, by simp [h1], h2, h3, h4⟩
          by_cases h : q.size = 0 <;> simp [step, setFront, checkPop, raise, hp, hh, h, hs _ v h3, sizeStep]
        | setBack v =>
          refine ⟨{ q with storage := q.storage.set q.pushIndex v }, .unit, ?_, rfl, by simp [h1], h2, h3, h4⟩
          by_cases h : q.size = 0 <;> simp [step, setBack, checkPop, raise, hp, hh, h, hs _ v h2, sizeStep]
        | size => exact ⟨q, _, rfl, rfl, h1, h2, h3, h4⟩
        | empty => exact ⟨q, _, rfl, rfl, h1, h2, h3, h4⟩
        | full => exact ⟨q, _, rfl, rfl, h1, h2, h3, h4⟩
        | clear =>
          refine ⟨clear c q, _, rfl, rfl, h1, ?_, hpos, by rw [hm]; exact Nat.two_pow_pos 64⟩
          have : szDec c.N = c.N - 1 := szDec_of_pos hpos
          simp only [clear, this]
          omega
      obtain ⟨q1, r, e, hs1, i1, i2, i3, i4⟩ := step1
      obtain ⟨q2, rs, e', hs2, hl⟩ := ih q1 i1 i2 i3 i4
      rw [hs1] at e' hs2
      refine ⟨q2, r :: rs, ?_, hs2, by simp [hl]⟩
      simp [run, e, e', reports]
  have hd : szDec c.N = c.N - 1 := szDec_of_pos hpos
  exact key ops (init c.N d) (by simp [init]) (by simp only [init, hd]; omega) hpos (by rw [hm]; exact Nat.two_pow_pos 64)

example : reports 2 0 ([.pop, .push 1, .push 2, .push 3, .clear, .front] : List (Op Nat)) = (0, 3) := by decide

end Verif.CxQueue
