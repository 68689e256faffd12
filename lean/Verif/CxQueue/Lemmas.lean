import Verif.CxQueue.Spec

namespace Verif.CxQueue

/-- Representation invariant linking the ring buffer to the abstract list. -/
structure Rep {α : Type} (N : Nat) (q : Queue α) (l : List α) : Prop where
  len : q.storage.length = N
  size : q.size = l.length
  le : l.length ≤ N
  popLt : 0 < N → q.popIndex < N
  popZ : N = 0 → q.popIndex = 0
  pushEq : q.pushIndex = if q.popIndex + l.length = 0 then szDec N else
      (if q.popIndex + l.length ≤ N then q.popIndex + l.length - 1
       else q.popIndex + l.length - 1 - N)
  cont : ∀ i, (h : i < l.length) →
    q.storage[if q.popIndex + i < N then q.popIndex + i else q.popIndex + i - N]? = some l[i]

theorem rep_init {α : Type} (N : Nat) (d : α) : Rep N (init N d) [] := by
  constructor <;> simp [init]

theorem rep_clear {α : Type} {c : Cfg α} {q : Queue α} {l : List α} (h : Rep c.N q l) :
    Rep c.N (clear c q) [] := by
  refine ⟨h.len, rfl, Nat.zero_le _, fun hh => hh, fun _ => rfl, rfl, ?_⟩
  intro i hi; simp at hi

theorem checkPush_ok {α : Type} {c : Cfg α} {n : Nat} (h : n < c.N) : checkPush c n = .ok 0 := by
  unfold checkPush raise; cases c.policy <;> simp; omega

theorem checkPop_ok {α : Type} {c : Cfg α} {n : Nat} (h : 0 < n) : checkPop c n = .ok 0 := by
  unfold checkPop raise; cases c.policy <;> simp; omega

theorem rep_push {α : Type} {c : Cfg α} {q : Queue α} {l : List α} (hN : c.N < szMod)
    (h : Rep c.N q l) (hl : l.length < c.N) (x : α) :
    ∃ q', push c q x = .ok (q', 0) ∧ Rep c.N q' (l ++ [x]) := by
  obtain ⟨h1, h2, h3, h4, h4', h5, h6⟩ := h
  have hp := h4 (by omega)
  have hidx : (if szInc q.pushIndex = c.N then 0 else szInc q.pushIndex) =
      if q.popIndex + l.length < c.N then q.popIndex + l.length
      else q.popIndex + l.length - c.N := by
    rw [h5]
    split
    · rw [szInc_szDec hN, if_pos rfl, if_pos (by omega)]; omega
    · split
      · rw [szInc_of_lt (n := c.N) (by omega) hN]
        split <;> split <;> omega
      · rw [szInc_of_lt (n := c.N) (by omega) hN]
        split <;> split <;> omega
  refine ⟨{ q with
    storage := q.storage.set (if q.popIndex + l.length < c.N then q.popIndex + l.length
      else q.popIndex + l.length - c.N) x
    pushIndex := (if q.popIndex + l.length < c.N then q.popIndex + l.length
      else q.popIndex + l.length - c.N)
    size := l.length + 1 }, ?_, ?_⟩
  · unfold push
    rw [checkPush_ok (by omega)]
    simp only [Outcome.ok_bind, hidx]
    rw [arrSet_of_lt (by split <;> omega)]
    have : szInc q.size = l.length + 1 := by
      rw [h2]; exact szInc_of_lt hl hN
    simp [this]
  · constructor <;> simp only [List.length_set, List.length_append, List.length_cons,
      List.length_nil]
    · exact h1
    · omega
    · omega
    · omega
    · split <;> split <;> (try split) <;> omega
    · intro i hi
      rw [List.getElem?_set]
      by_cases hil : i = l.length
      · subst hil
        simp only [↓reduceIte]
        rw [if_pos (by split <;> omega)]
        simp
      · have hil' : i < l.length := by omega
        rw [if_neg (by split <;> split <;> omega), h6 i hil']
        simp [List.getElem_append_left hil']

theorem rep_front {α : Type} {N : Nat} {q : Queue α} {x : α} {l : List α}
    (h : Rep N q (x :: l)) : arrGet q.storage q.popIndex = .ok x := by
  have := h.cont 0 (by simp)
  have hle := h.le
  have hp := h.popLt (by simp at hle; omega)
  simp [hp] at this
  exact arrGet_ok.2 this

theorem rep_pop {α : Type} {c : Cfg α} {q : Queue α} {x : α} {l : List α} (hN : c.N < szMod)
    (h : Rep c.N q (x :: l)) :
    ∃ q', pop c q = .ok ((q', x), 0) ∧ Rep c.N q' l := by
  have hf := rep_front h
  obtain ⟨h1, h2, h3, h4, h4', h5, h6⟩ := h
  simp only [List.length_cons] at *
  have hp := h4 (by omega)
  have hinc : szInc q.popIndex = q.popIndex + 1 := szInc_of_lt hp hN
  refine ⟨{ q with
    storage := q.storage.set q.popIndex (c.mv x)
    popIndex := if q.popIndex + 1 = c.N then 0 else q.popIndex + 1
    size := l.length }, ?_, ?_⟩
  · unfold pop
    rw [checkPop_ok (by omega), hf]
    simp only [Outcome.ok_bind]
    rw [arrSet_of_lt (by omega)]
    have : szDec q.size = l.length := by
      rw [h2, szDec_of_pos (by omega)]; omega
    simp [this, hinc]
  · constructor <;> (try simp only [List.length_set])
    · exact h1
    · omega
    · split <;> omega
    · omega
    · have := szDec_of_pos (x := c.N) (by omega)
      rw [h5, this]
      clear h5 h6 hf
      grind
    · intro i hi
      have := h6 (i + 1) (by omega)
      rw [List.getElem?_set, if_neg (by split <;> split <;> omega)]
      simp only [List.getElem_cons_succ] at this
      rw [← this]
      congr 1
      split <;> split <;> (try split) <;> omega

theorem rep_pushIndex {α : Type} {N : Nat} {q : Queue α} {l : List α}
    (h : Rep N q l) (hl : l ≠ []) :
    q.pushIndex = (if q.popIndex + (l.length - 1) < N then q.popIndex + (l.length - 1)
      else q.popIndex + (l.length - 1) - N) ∧ q.pushIndex < N := by
  have hpos : 0 < l.length := List.length_pos_iff.2 hl
  have hle := h.le
  have hp := h.popLt (by omega)
  rw [h.pushEq, if_neg (by omega)]
  constructor <;> (split <;> (try split) <;> omega)

theorem rep_back {α : Type} {N : Nat} {q : Queue α} {l : List α}
    (h : Rep N q l) (hl : l ≠ []) : arrGet q.storage q.pushIndex = .ok (l.getLast hl) := by
  have hpos : 0 < l.length := List.length_pos_iff.2 hl
  have := h.cont (l.length - 1) (by omega)
  rw [arrGet_ok, (rep_pushIndex h hl).1, this, List.getLast_eq_getElem]

theorem rep_setFront {α : Type} {c : Cfg α} {q : Queue α} {x y : α} {l : List α}
    (h : Rep c.N q (x :: l)) :
    ∃ q', setFront c q y = .ok (q', 0) ∧ Rep c.N q' (y :: l) := by
  obtain ⟨h1, h2, h3, h4, h4', h5, h6⟩ := h
  simp only [List.length_cons] at *
  have hp := h4 (by omega)
  refine ⟨{ q with storage := q.storage.set q.popIndex y }, ?_, ?_⟩
  · unfold setFront
    rw [checkPop_ok (by omega)]
    simp only [Outcome.ok_bind]
    rw [arrSet_of_lt (by omega)]
    rfl
  · constructor <;> (try simp only [List.length_set, List.length_cons]) <;> (try assumption)
    intro i hi
    rw [List.getElem?_set]
    cases i with
    | zero => simp [hp, h1]
    | succ i =>
      rw [if_neg (by split <;> omega), h6 (i + 1) hi]; rfl

theorem rep_setBack {α : Type} {c : Cfg α} {q : Queue α} {y : α} {l : List α}
    (h : Rep c.N q l) (hl : l ≠ []) :
    ∃ q', setBack c q y = .ok (q', 0) ∧ Rep c.N q' (l.dropLast ++ [y]) := by
  have hpos : 0 < l.length := List.length_pos_iff.2 hl
  have hpi := rep_pushIndex h hl
  obtain ⟨h1, h2, h3, h4, h4', h5, h6⟩ := h
  have hp := h4 (by omega)
  have hlen : (l.dropLast ++ [y]).length = l.length := by simp; omega
  refine ⟨{ q with storage := q.storage.set q.pushIndex y }, ?_, ?_⟩
  · unfold setBack
    rw [checkPop_ok (by omega)]
    simp only [Outcome.ok_bind]
    rw [arrSet_of_lt (by omega)]
    rfl
  · constructor <;> (try simp only [List.length_set, hlen]) <;> (try assumption)
    intro i hi
    rw [List.getElem?_set, hpi.1]
    by_cases hil : i = l.length - 1
    · subst hil
      simp only [↓reduceIte]
      rw [if_pos (by split <;> omega)]
      simp
    · rw [if_neg (by split <;> split <;> omega), h6 i hi]
      rw [List.getElem_append_left (by simp; omega)]
      simp

/-- One step of the model refines one step of the specification. -/
theorem step_refines {α : Type} {c : Cfg α} {q : Queue α} {l l' : List α} {o : Op α} {r : Out α}
    (hN : c.N < szMod) (h : Rep c.N q l) (hs : specStep c.N l o = some (l', r)) :
    ∃ q', step c q o = .ok (q', r, 0) ∧ Rep c.N q' l' := by
  cases o with
  | push x =>
    simp only [specStep] at hs
    split at hs
    · rename_i hlt
      simp only [Option.some.injEq, Prod.mk.injEq] at hs
      obtain ⟨rfl, rfl⟩ := hs
      obtain ⟨q', e, hr⟩ := rep_push hN h hlt x
      exact ⟨q', by simp [step, e], hr⟩
    · simp at hs
  | pop =>
    cases l with
    | nil => simp [specStep] at hs
    | cons x xs =>
      simp only [specStep, Option.some.injEq, Prod.mk.injEq] at hs
      obtain ⟨rfl, rfl⟩ := hs
      obtain ⟨q', e, hr⟩ := rep_pop hN h
      exact ⟨q', by simp [step, e], hr⟩
  | front =>
    cases l with
    | nil => simp [specStep] at hs
    | cons x xs =>
      simp only [specStep, Option.some.injEq, Prod.mk.injEq] at hs
      obtain ⟨rfl, rfl⟩ := hs
      refine ⟨q, ?_, h⟩
      have hsz := h.size
      simp at hsz
      simp [step, front, checkPop_ok (c := c) (n := q.size) (by omega), rep_front h]
  | back =>
    by_cases hl : l = []
    · simp [specStep, hl] at hs
    · simp only [specStep, List.getLast?_eq_some_getLast hl, Option.map_some,
        Option.some.injEq, Prod.mk.injEq] at hs
      obtain ⟨rfl, rfl⟩ := hs
      refine ⟨q, ?_, h⟩
      have hsz := h.size
      have hpos : 0 < l.length := List.length_pos_iff.2 hl
      simp [step, back, checkPop_ok (c := c) (n := q.size) (by omega), rep_back h hl]
  | setFront y =>
    cases l with
    | nil => simp [specStep] at hs
    | cons x xs =>
      simp only [specStep, Option.some.injEq, Prod.mk.injEq] at hs
      obtain ⟨rfl, rfl⟩ := hs
      obtain ⟨q', e, hr⟩ := rep_setFront (c := c) (y := y) h
      exact ⟨q', by simp [step, e], hr⟩
  | setBack y =>
    by_cases hl : l = []
    · simp [specStep, hl] at hs
    · simp only [specStep, hl, ↓reduceIte, Option.some.injEq, Prod.mk.injEq] at hs
      obtain ⟨rfl, rfl⟩ := hs
      obtain ⟨q', e, hr⟩ := rep_setBack (c := c) (y := y) h hl
      exact ⟨q', by simp [step, e], hr⟩
  | size =>
    simp only [specStep, Option.some.injEq, Prod.mk.injEq] at hs
    obtain ⟨rfl, rfl⟩ := hs
    exact ⟨q, by simp [step, h.size], h⟩
  | empty =>
    simp only [specStep, Option.some.injEq, Prod.mk.injEq] at hs
    obtain ⟨rfl, rfl⟩ := hs
    refine ⟨q, ?_, h⟩
    simp only [step, h.size]
    cases l <;> simp
  | full =>
    simp only [specStep, Option.some.injEq, Prod.mk.injEq] at hs
    obtain ⟨rfl, rfl⟩ := hs
    refine ⟨q, ?_, h⟩
    simp only [step, h.size]
    congr 4
  | clear =>
    simp only [specStep, Option.some.injEq, Prod.mk.injEq] at hs
    obtain ⟨rfl, rfl⟩ := hs
    exact ⟨clear c q, rfl, rep_clear h⟩

/-- With the safe policy and a handler that does not return, a violated precondition ends
the program in the panic handler. -/
theorem step_panics {α : Type} {c : Cfg α} {q : Queue α} {l : List α} {o : Op α}
    (hp : c.policy = .safe) (hh : c.handler = .noreturn)
    (h : Rep c.N q l) (hs : specStep c.N l o = none) : step c q o = .panic := by
  have hsz := h.size
  cases o with
  | push x =>
    simp only [specStep] at hs
    split at hs
    · simp at hs
    · have : c.N ≤ q.size := by omega
      simp [step, push, checkPush, hp, hh, raise, this]
  | pop =>
    cases l with
    | nil => simp at hsz; simp [step, pop, checkPop, hp, hh, raise, hsz]
    | cons x xs => simp [specStep] at hs
  | front =>
    cases l with
    | nil => simp at hsz; simp [step, front, checkPop, hp, hh, raise, hsz]
    | cons x xs => simp [specStep] at hs
  | back =>
    cases l with
    | nil => simp at hsz; simp [step, back, checkPop, hp, hh, raise, hsz]
    | cons x xs => simp [specStep, List.getLast?] at hs
  | setFront y =>
    cases l with
    | nil => simp at hsz; simp [step, setFront, checkPop, hp, hh, raise, hsz]
    | cons x xs => simp [specStep] at hs
  | setBack y =>
    cases l with
    | nil => simp at hsz; simp [step, setBack, checkPop, hp, hh, raise, hsz]
    | cons x xs => simp [specStep] at hs
  | size => simp [specStep] at hs
  | empty => simp [specStep] at hs
  | full => simp [specStep] at hs
  | clear => simp [specStep] at hs

theorem run_refines {α : Type} {c : Cfg α} (hN : c.N < szMod) (ops : List (Op α)) :
    ∀ {q : Queue α} {l l' : List α} {rs : List (Out α)}, Rep c.N q l →
      specRun c.N l ops = some (l', rs) → ∃ q', run c q ops = .ok (q', rs, 0) ∧ Rep c.N q' l' := by
  induction ops with
  | nil =>
    intro q l l' rs h hs
    simp [specRun] at hs
    obtain ⟨rfl, rfl⟩ := hs
    exact ⟨q, rfl, h⟩
  | cons o os ih =>
    intro q l l' rs h hs
    simp only [specRun] at hs
    cases e1 : specStep c.N l o with
    | none => simp [e1] at hs
    | some p =>
      obtain ⟨l1, r1⟩ := p
      simp only [e1] at hs
      cases e2 : specRun c.N l1 os with
      | none => simp [e2] at hs
      | some p2 =>
        obtain ⟨l2, r2⟩ := p2
        simp only [e2, Option.some.injEq, Prod.mk.injEq] at hs
        obtain ⟨rfl, rfl⟩ := hs
        obtain ⟨q1, es, hr1⟩ := step_refines hN h e1
        obtain ⟨q2, er, hr2⟩ := ih hr1 e2
        exact ⟨q2, by simp [run, es, er], hr2⟩

theorem run_panics {α : Type} {c : Cfg α} (hN : c.N < szMod)
    (hp : c.policy = .safe) (hh : c.handler = .noreturn) (ops : List (Op α)) :
    ∀ {q : Queue α} {l : List α}, Rep c.N q l →
      specRun c.N l ops = none → run c q ops = .panic := by
  induction ops with
  | nil => intro q l h hs; simp [specRun] at hs
  | cons o os ih =>
    intro q l h hs
    simp only [specRun] at hs
    cases e1 : specStep c.N l o with
    | none => simp [run, step_panics hp hh h e1]
    | some p =>
      obtain ⟨l1, r1⟩ := p
      simp only [e1] at hs
      cases e2 : specRun c.N l1 os with
      | some p2 => simp [e2] at hs
      | none =>
        obtain ⟨q1, es, hr1⟩ := step_refines hN h e1
        simp [run, es, ih hr1 e2]

end Verif.CxQueue
