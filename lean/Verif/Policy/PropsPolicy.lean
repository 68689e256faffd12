import Verif.Policy.Spec
import Verif.CxQueue.Lemmas
import Verif.Caught.Spec

/-!
# Properties of overflow policies of the program's own (C151)
-/

namespace Verif.Policy

open Verif.Unwind Verif.Judge Verif.CxQueue

variable {E W α : Type}

/-- What the policy is asked about an operation that asks it. -/
def about (N size : Nat) : Op α → Check
  | .push _ => .push size N
  | _ => .pop size

/-- A call of the model from its outcome without a policy, after the policy has been asked. -/
theorem step_eq (P : Policy E W) (N : Nat) (mv : α → α) (o : Op α) (q : Queue α) (w : W) (c : Check)
    (hc : c = about N q.size o)
    (ho : o ≠ .size ∧ o ≠ .empty ∧ o ≠ .full ∧ o ≠ .clear) :
    step P N mv o (q, w) = (ask P c (q, w)).andThen fun s _ =>
      need (CxQueue.step ⟨N, .unchecked, .noreturn, mv⟩ q o) fun r => .ok (r.1, s.2) r.2.1 := by
  subst hc
  cases o with
  | size | empty | full | clear => simp at ho
  | push x =>
    simp only [step, push, ask, about, CxQueue.step, CxQueue.push, CxQueue.checkPush]
    rcases P (.push q.size N) w with ⟨w', _ | _ | _⟩ <;> simp only [Res.andThen, need]
    cases arrSet q.storage (if szInc q.pushIndex = N then 0 else szInc q.pushIndex) x <;> rfl
  | pop =>
    simp only [step, pop, ask, about, CxQueue.step, CxQueue.pop, CxQueue.checkPop]
    rcases P (.pop q.size) w with ⟨w', _ | _ | _⟩ <;> simp only [Res.andThen, need]
    cases arrGet q.storage q.popIndex with
    | ok x => cases e : arrSet q.storage q.popIndex (mv x) <;> simp [e]
    | _ => rfl
  | front =>
    simp only [step, front, ask, about, CxQueue.step, CxQueue.front, CxQueue.checkPop]
    rcases P (.pop q.size) w with ⟨w', _ | _ | _⟩ <;> simp only [Res.andThen, need]
    cases arrGet q.storage q.popIndex <;> rfl
  | back =>
    simp only [step, back, ask, about, CxQueue.step, CxQueue.back, CxQueue.checkPop]
    rcases P (.pop q.size) w with ⟨w', _ | _ | _⟩ <;> simp only [Res.andThen, need]
    cases arrGet q.storage q.pushIndex <;> rfl
  | setFront x =>
    simp only [step, setFront, ask, about, CxQueue.step, CxQueue.setFront, CxQueue.checkPop]
    rcases P (.pop q.size) w with ⟨w', _ | _ | _⟩ <;> simp only [Res.andThen, need]
    cases arrSet q.storage q.popIndex x <;> rfl
  | setBack x =>
    simp only [step, setBack, ask, about, CxQueue.step, CxQueue.setBack, CxQueue.checkPop]
    rcases P (.pop q.size) w with ⟨w', _ | _ | _⟩ <;> simp only [Res.andThen, need]
    cases arrSet q.storage q.pushIndex x <;> rfl

theorem asked_eq {N : Nat} {q : Queue α} {l : List α} {o : Op α} {c : Check} (h : Rep N q l) (ha : asked N l o = some c) :
    c = about N q.size o ∧ (o ≠ .size ∧ o ≠ .empty ∧ o ≠ .full ∧ o ≠ .clear) := by
  cases o <;> simp [asked] at ha <;> simp [← ha, h.size, about]

theorem step_unasked (P : Policy E W) {N : Nat} (mv : α → α) {o : Op α} {q : Queue α} {l : List α} (w : W) (ha : asked N l o = none) :
    step P N mv o (q, w) = need (CxQueue.step ⟨N, .unchecked, .noreturn, mv⟩ q o) fun r => .ok (r.1, w) r.2.1 := by
  cases o <;> simp [asked] at ha <;> rfl

/-- How the outcome of a call on the queue follows the outcome of the same call on the abstract queue, where that is defined. -/
inductive Follows {R : Type} (N : Nat) : Res E (List α × W) R → Res E (Queue α × W) R → Prop where
  | ok {l w r q} (h : Rep N q l) : Follows N (.ok (l, w) r) (.ok (q, w) r)
  | threw {l w e q} (h : Rep N q l) : Follows N (.threw (l, w) e) (.threw (q, w) e)
  | terminated : Follows N .terminated .terminated

theorem step_allowed {P : Policy E W} {N : Nat} {mv : α → α} (hN : N < szMod) {o : Op α} {q : Queue α} {l : List α} {w : W}
    (h : Rep N q l) (hd : (allowed N o (l, w) : Res E _ _) ≠ .ub) :
    Follows N (allowed N o (l, w) : Res E _ _) (need (CxQueue.step ⟨N, .unchecked, .noreturn, mv⟩ q o) fun r => .ok (r.1, w) r.2.1) := by
  unfold allowed at *
  cases hs : specStep N l o with
  | none => simp [hs] at hd
  | some p =>
    obtain ⟨l', r⟩ := p
    obtain ⟨q', e, h'⟩ := step_refines (c := ⟨N, .unchecked, .noreturn, mv⟩) hN h hs
    simp only [e, need]
    exact .ok h'

theorem step_follows {P : Policy E W} {N : Nat} {mv : α → α} (hN : N < szMod) {o : Op α} {q : Queue α} {l : List α} {w : W}
    (h : Rep N q l) (hd : guarded P N o (l, w) ≠ .ub) : Follows N (guarded P N o (l, w)) (step P N mv o (q, w)) := by
  unfold guarded at *
  cases ha : asked N l o with
  | none =>
    simp only [ha] at hd ⊢
    rw [step_unasked P mv w ha]
    exact step_allowed (P := P) hN h hd
  | some c =>
    simp only [ha] at hd ⊢
    obtain ⟨hc, ho⟩ := asked_eq h ha
    rw [step_eq P N mv o q w c hc ho]
    simp only [ask]
    rcases hP : P c w with ⟨w', _ | e | _⟩ <;> simp only [hP, Res.andThen] at hd ⊢
    · exact step_allowed (P := P) hN h hd
    · exact .threw h
    · exact .terminated

theorem history_follows {P : Policy E W} {N : Nat} {mv : α → α} (hN : N < szMod) (ops : List (Op α)) :
    ∀ {q : Queue α} {l : List α} {w : W}, Rep N q l → history (guarded P N) ops (l, w) ≠ .ub →
      Follows N (history (guarded P N) ops (l, w)) (history (step P N mv) ops (q, w)) := by
  induction ops with
  | nil => intro q l w h _; exact .ok h
  | cons o os ih =>
    intro q l w h hd
    have hg : guarded P N o (l, w) ≠ .ub := by
      intro hu; simp [history, hu] at hd
    have hf := step_follows (mv := mv) hN h hg
    simp only [history] at hd ⊢
    generalize guarded P N o (l, w) = a at *
    generalize step P N mv o (q, w) = b at *
    cases hf with
    | terminated => exact .terminated
    | ok h1 | threw h1 =>
      simp only at hd ⊢
      rename_i l1 w1 _ q1
      have hd1 : history (guarded P N) os (l1, w1) ≠ .ub := by
        intro hu; simp [hu, Res.andThen] at hd
      have := ih h1 hd1
      generalize history (guarded P N) os (l1, w1) = a at *
      generalize history (step P N mv) os (q1, w1) = b at *
      cases this with
      | ok h2 => exact .ok h2
      | threw h2 => exact .threw h2
      | terminated => exact .terminated

/-- **C151, one call.** In any state and with any policy: an operation that reads or changes elements asks the policy once, about the size
before the call, before it does anything else: if the policy throws, its exception leaves the call and the queue is as it was; if it does not
return, neither does the call; if it returns, the call is that of a queue without any check. -/
theorem C151_asked_first (P : Policy E W) (N : Nat) (mv : α → α) (q : Queue α) (w w' : W) (o : Op α) (c : Check)
    (hc : (∃ x, o = .push x ∧ c = .push q.size N) ∨
      ((o = .pop ∨ o = .front ∨ o = .back ∨ (∃ x, o = .setFront x) ∨ ∃ x, o = .setBack x) ∧ c = .pop q.size)) :
    (∀ e, P c w = (w', .throws e) → step P N mv o (q, w) = .threw (q, w') e) ∧
    (P c w = (w', .stops) → step P N mv o (q, w) = .terminated) ∧
    (P c w = (w', .returns) → step P N mv o (q, w) = step unsafely N mv o (q, w')) := by
  have key : c = about N q.size o ∧ (o ≠ .size ∧ o ≠ .empty ∧ o ≠ .full ∧ o ≠ .clear) := by
    rcases hc with ⟨x, rfl, rfl⟩ | ⟨rfl | rfl | rfl | ⟨x, rfl⟩ | ⟨x, rfl⟩, rfl⟩ <;> simp [about]
  rw [step_eq P N mv o q w c key.1 key.2, step_eq unsafely N mv o q w' c key.1 key.2]
  refine ⟨fun e he => ?_, fun he => ?_, fun he => ?_⟩ <;> simp [ask, he, Res.andThen, unsafely]

/-- **C151, calls that ask nothing.** `size`, `empty`, `full` and `clear` are the same with any policy, and leave its world alone. -/
theorem C151_not_asked (P : Policy E W) (N : Nat) (mv : α → α) (q : Queue α) (w : W) :
    step P N mv .size (q, w) = .ok (q, w) (.nat q.size) ∧ step P N mv .empty (q, w) = .ok (q, w) (.bool (decide (q.size = 0))) ∧
      step P N mv .full (q, w) = .ok (q, w) (.bool (decide (q.size = N))) ∧
      ∃ q', step P N mv .clear (q, w) = .ok (q', w) .unit ∧ q'.size = 0 := by
  refine ⟨rfl, ?_, ?_, _, rfl, rfl⟩ <;> simp only [step] <;> congr

/-- **C151, histories.** With any policy, a history is that of a bounded queue whose policy is asked first, as far as the policy lets nothing
through that this queue does not allow: the same results, the same exceptions, the same world of the policy at the end, and the queue then
holds the same elements (as any further calls show). -/
theorem C151_history {P : Policy E W} {N : Nat} {mv : α → α} (hN : N < szMod) (d : α) (ops : List (Op α)) (w : W) :
    (∀ l w' rs, history (guarded P N) ops ([], w) = .ok (l, w') rs → ∃ q', history (step P N mv) ops (init N d, w) = .ok (q', w') rs ∧
      q'.size = l.length ∧ ∀ i x, l[i]? = some x → q'.storage[(q'.popIndex + i) % N]? = some x) ∧
    (history (guarded P N) ops ([], w) = .terminated → history (step P N mv) ops (init N d, w) = .terminated) := by
  constructor
  · intro l w' rs h
    have hf := history_follows (P := P) (mv := mv) hN ops (w := w) (rep_init N d) (by simp [h])
    rw [h] at hf
    generalize hb : history (step P N mv) ops (init N d, w) = b at hf
    cases hf with
    | ok h1 =>
      refine ⟨_, rfl, h1.size, fun i x hx => ?_⟩
      obtain ⟨hi, rfl⟩ := List.getElem?_eq_some_iff.mp hx
      have hpos : 0 < N := by have := h1.le; omega
      have hp := h1.popLt hpos
      rw [← h1.cont i hi]
      congr 1
      have := h1.le
      split
      · exact Nat.mod_eq_of_lt ‹_›
      · rw [Nat.mod_eq_sub_mod (by omega)]
        exact Nat.mod_eq_of_lt (by omega)
  · intro h
    have hf := history_follows (P := P) (mv := mv) hN ops (w := w) (rep_init N d) (by simp [h])
    rw [h] at hf
    generalize hb : history (step P N mv) ops (init N d, w) = b at hf
    cases hf
    rfl

theorem guarded_sound {P : Policy E W} (hs : Sound P) {N : Nat} {o : Op α} {l : List α} {w : W} : guarded P N o (l, w) ≠ .ub := by
  unfold guarded
  cases ha : asked N l o with
  | none => cases o <;> simp [asked] at ha <;> simp [allowed, specStep]
  | some c =>
    simp only
    rcases hP : P c w with ⟨w', _ | e | _⟩ <;> simp
    have := hs c w (by simp [hP])
    cases o <;> simp [asked] at ha <;> subst ha <;> simp only [Check.Safe] at this
    case push x => simp [allowed, specStep, this]
    all_goals
      obtain ⟨a, l', rfl⟩ := List.exists_cons_of_length_pos this
      simp [allowed, specStep, List.getLast?_cons]

theorem specStep_len {N K : Nat} {o : Op α} {l l' : List α} {r : Out α} (hs : specStep N l o = some (l', r)) (h : l.length ≤ K)
    (hp : ∀ x, o = .push x → l.length < K) : l'.length ≤ K := by
  cases o <;> simp only [specStep] at hs
  case push x =>
    have := hp x rfl
    split at hs <;> simp at hs
    simp [← hs.1]; omega
  case pop => cases l <;> simp at hs; simp [← hs.1] at *; omega
  case front => cases l <;> simp at hs; simp [← hs.1] at *; omega
  case back => cases hl : l.getLast? <;> simp [hl] at hs; simp [← hs.1]; omega
  case setFront x => cases l <;> simp at hs; simp [← hs.1] at *; omega
  case setBack x =>
    split at hs <;> simp at hs
    have := List.length_pos_iff.mpr ‹l ≠ []›
    simp [← hs.1]; omega
  all_goals
    simp only [Option.some.injEq, Prod.mk.injEq] at hs
    rw [← hs.1]
    first | exact h | exact Nat.zero_le _

theorem guarded_len {P : Policy E W} {N K : Nat} (hK : ∀ size w, (P (.push size N) w).2 = .returns → size < K) {o : Op α} {l l' : List α}
    {w w' : W} {r : Out α} (h : l.length ≤ K) (hg : guarded P N o (l, w) = .ok (l', w') r) : l'.length ≤ K := by
  have hal : ∀ w1, (∀ x, o = .push x → l.length < K) → (allowed N o (l, w1) : Res E _ _) = .ok (l', w') r → l'.length ≤ K := by
    intro w1 hp ha
    unfold allowed at ha
    cases hs : specStep N l o with
    | none => simp [hs] at ha
    | some p =>
      simp [hs] at ha
      exact ha.1.1 ▸ specStep_len hs h hp
  unfold guarded at hg
  cases ha : asked N l o with
  | none => exact hal w (by rintro x rfl; simp [asked] at ha) (by simpa [ha] using hg)
  | some c =>
    simp only [ha] at hg
    rcases hP : P c w with ⟨w1, _ | e | _⟩ <;> simp [hP] at hg
    refine hal w1 ?_ hg
    rintro x rfl
    simp only [asked, Option.some.injEq] at ha
    subst ha
    exact hK _ w (by rw [hP])

theorem guarded_threw {P : Policy E W} {N : Nat} {o : Op α} {l l' : List α} {w w' : W} {e : E}
    (hg : guarded P N o (l, w) = .threw (l', w') e) : l' = l := by
  unfold guarded at hg
  cases ha : asked N l o with
  | none => simp only [ha, allowed] at hg; split at hg <;> simp at hg
  | some c =>
    simp only [ha, allowed] at hg
    rcases hP : P c w with ⟨w1, _ | e | _⟩ <;> simp [hP] at hg
    · split at hg <;> simp at hg
    · exact hg.1.1.symm

theorem history_sound {P : Policy E W} (hs : Sound P) {N K : Nat} (hK : ∀ size w, (P (.push size N) w).2 = .returns → size < K)
    (ops : List (Op α)) :
    ∀ {l : List α} {w : W}, l.length ≤ K → (∃ l' w' rs, history (guarded P N) ops (l, w) = .ok (l', w') rs ∧ l'.length ≤ K) ∨
      history (guarded P N) ops (l, w) = .terminated := by
  induction ops with
  | nil => intro l w h; exact .inl ⟨l, w, [], rfl, h⟩
  | cons o os ih =>
    intro l w h
    have hu := guarded_sound hs (N := N) (o := o) (l := l) (w := w)
    simp only [history]
    cases hg : guarded P N o (l, w) with
    | ub => exact absurd hg hu
    | terminated => exact .inr rfl
    | ok s r =>
      rcases ih (w := s.2) (guarded_len hK h hg) with ⟨l', w', rs, e, hl⟩ | e
      · exact .inl ⟨l', w', some r :: rs, by simp [e, Res.andThen], hl⟩
      · exact .inr (by simp [e, Res.andThen])
    | threw s x =>
      have : s.1 = l := guarded_threw hg
      rcases ih (l := s.1) (w := s.2) (by rw [this]; exact h) with ⟨l', w', rs, e, hl⟩ | e
      · exact .inl ⟨l', w', none :: rs, by simp [e, Res.andThen], hl⟩
      · exact .inr (by simp [e, Res.andThen])

/-- **C151, sound policies.** If the policy returns only when the documentation says that the call is safe (it may refuse more), every history
whatsoever is defined: it ends with the results of the bounded queue whose policy is asked first, or in the policy.  If the policy lets pushes
through only below `K` elements, there are never more than `K`. -/
theorem C151_sound {P : Policy E W} (hs : Sound P) {N K : Nat} (hK : ∀ size w, (P (.push size N) w).2 = .returns → size < K)
    {mv : α → α} (hN : N < szMod) (d : α) (ops : List (Op α)) (w : W) :
    (∃ l w' rs q', history (guarded P N) ops ([], w) = .ok (l, w') rs ∧ history (step P N mv) ops (init N d, w) = .ok (q', w') rs ∧
      q'.size = l.length ∧ l.length ≤ K) ∨
    history (guarded P N) ops ([], w) = .terminated ∧ history (step P N mv) ops (init N d, w) = .terminated := by
  obtain ⟨h1, h2⟩ := C151_history (P := P) (mv := mv) hN d ops w
  rcases history_sound hs hK ops (l := ([] : List α)) (w := w) (Nat.zero_le _) with ⟨l, w', rs, e, hl⟩ | e
  · obtain ⟨q', e', hq, _⟩ := h1 l w' rs e
    exact .inl ⟨l, w', rs, q', e, e', hq, hl⟩
  · exact .inr ⟨e, h2 e⟩

theorem sound_marking : Sound marking := by
  intro c w h
  cases c <;> simp only [marking] at h <;> split at h <;> first | assumption | simp at h

theorem sound_reserving (k : Nat) : Sound (reserving k) := by
  intro c w h
  cases c <;> simp only [reserving] at h <;> split at h <;> first | (simp only [Check.Safe]; omega) | simp at h

theorem reserving_below (k N size : Nat) (w : Unit) (h : (reserving k (.push size N) w).2 = .returns) : size < N - k := by
  simp only [reserving] at h
  split at h
  · omega
  · simp at h

/-- The policy of the documentation and of the library: what is not safe goes to a handler that does not return. -/
theorem sound_safe {H : W → W × Answer E} (hH : ∀ w, (H w).2 ≠ .returns) : Sound (safe H) := by
  intro c w h
  cases c <;> simp only [safe] at h <;> split at h <;> first | exact absurd h (hH w) | (simp only [Check.Safe]; omega)

theorem guarded_marking {N : Nat} {o : Op α} {l : List α} {m : Nat} (h : l.length ≤ m) :
    (specStep N l o = none ∧ guarded marking N o (l, m) = .threw (l, m) ()) ∨
      ∃ l' r, specStep N l o = some (l', r) ∧ guarded marking N o (l, m) = .ok (l', max m l'.length) r := by
  cases o with
  | push x =>
    by_cases hl : l.length < N
    · exact .inr ⟨l ++ [x], .val x, by simp [specStep, hl], by simp [guarded, asked, marking, allowed, specStep, hl]⟩
    · exact .inl ⟨by simp [specStep, hl], by simp [guarded, asked, marking, hl]⟩
  | size | empty | full =>
    exact .inr ⟨l, _, rfl, by simp [guarded, asked, allowed, specStep]; omega⟩
  | clear => exact .inr ⟨[], _, rfl, by simp [guarded, asked, allowed, specStep]⟩
  | pop | front | setFront x =>
    cases l with
    | nil => exact .inl ⟨rfl, by simp [guarded, asked, marking]⟩
    | cons a l =>
      simp only [List.length_cons] at h
      refine .inr ⟨_, _, rfl, ?_⟩
      simp [guarded, asked, marking, allowed, specStep]
      omega
  | back =>
    by_cases hl : l = []
    · subst hl; exact .inl ⟨rfl, by simp [guarded, asked, marking]⟩
    · have hp := List.length_pos_iff.mpr hl
      refine .inr ⟨l, .val (l.getLast hl), by simp [specStep, List.getLast?_eq_some_getLast hl], ?_⟩
      simp [guarded, asked, marking, allowed, specStep, List.getLast?_eq_some_getLast hl, hp]
      omega
  | setBack x =>
    by_cases hl : l = []
    · subst hl; exact .inl ⟨rfl, by simp [guarded, asked, marking]⟩
    · have hp := List.length_pos_iff.mpr hl
      refine .inr ⟨l.dropLast ++ [x], .unit, by simp [specStep, hl], ?_⟩
      simp [guarded, asked, marking, allowed, specStep, hl, hp]
      omega

theorem marked {N : Nat} (ops : List (Op α)) :
    ∀ {l : List α} {m : Nat}, l.length ≤ m → history (guarded marking N) ops (l, m) =
      .ok ((Caught.queueCaught N l ops).1, max m (peak N l ops)) (Caught.queueCaught N l ops).2 := by
  induction ops with
  | nil => intro l m h; simp [history, Caught.queueCaught, peak, Nat.max_eq_left h]
  | cons o os ih =>
    intro l m h
    rcases guarded_marking (N := N) (o := o) h with ⟨hs, hg⟩ | ⟨l', r, hs, hg⟩
    · simp only [history, hg, ih h, Res.andThen, Caught.queueCaught, hs, peak, Option.map_none, Option.getD_none]
      congr 2
      omega
    · simp only [history, hg, ih (l := l') (m := max m l'.length) (by omega), Res.andThen, Caught.queueCaught, hs, peak, Option.map_some,
        Option.getD_some]
      have : l'.length ≤ peak N l' os := by cases os <;> simp [peak] <;> omega
      congr 2
      omega

/-- **C151, a policy with a mark.** Whatever the history, the mark that such a policy keeps is the largest number of elements the queue has
held; unsafe calls are left by an exception and nothing else happens. -/
theorem C151_mark {N : Nat} {mv : α → α} (hN : N < szMod) (d : α) (ops : List (Op α)) :
    ∃ q', history (step marking N mv) ops (init N d, 0) = .ok (q', peak N [] ops) (Caught.queueCaught N [] ops).2 := by
  have h := marked (N := N) ops (l := ([] : List α)) (m := 0) (Nat.le_refl _)
  rw [Nat.zero_max] at h
  obtain ⟨q', e, _⟩ := (C151_history (mv := mv) hN d ops 0).1 _ _ _ h
  exact ⟨q', e⟩

/-- **C151, a policy with a reserve.** Whatever the history, the queue never holds more than `N - k` elements, and nothing is undefined. -/
theorem C151_reserve {N k : Nat} {mv : α → α} (hN : N < szMod) (d : α) (ops : List (Op α)) :
    (∃ rs q', history (step (reserving k) N mv) ops (init N d, ()) = .ok (q', ()) rs ∧ q'.size ≤ N - k) ∨
      history (step (reserving k) N mv) ops (init N d, ()) = .terminated := by
  rcases C151_sound (sound_reserving k) (reserving_below k N) (mv := mv) hN d ops () with ⟨l, w', rs, q', _, e, hq, hl⟩ | ⟨_, e⟩
  · exact .inl ⟨rs, q', e, by omega⟩
  · exact .inr e

/-- **C151, the policies of the library.** The safe policy is the one of C141 and C142 (its handler called where the documentation says), the
unsafe one is none at all. -/
theorem C151_safe (H : Caught.Handler E W) (N : Nat) (mv : α → α) (o : Op α) (s : Queue α × W) :
    step (safe fun w => ((H w).1, match (H w).2 with | .ok () => .returns | .error e => .throws e)) N mv o s =
      Caught.qStep (fun _ => Caught.panics H) N mv o s := by
  obtain ⟨q, w⟩ := s
  have hpush : ask (safe fun w => ((H w).1, match (H w).2 with | .ok () => .returns | .error e => .throws e)) (.push q.size N) (q, w) =
      Caught.checkPush (fun _ => Caught.panics H) N (q, w) := by
    simp only [ask, safe, Caught.checkPush, Caught.panics]
    by_cases h : q.size ≥ N
    · simp only [h, if_true]
      rcases H w with ⟨w', _ | ⟨⟩⟩ <;> rfl
    · simp only [h, if_false]
  have hpop : ask (safe fun w => ((H w).1, match (H w).2 with | .ok () => .returns | .error e => .throws e)) (.pop q.size) (q, w) =
      Caught.checkPop (fun _ => Caught.panics H) (q, w) := by
    simp only [ask, safe, Caught.checkPop, Caught.panics]
    by_cases h : q.size ≤ 0
    · simp only [h, if_true]
      rcases H w with ⟨w', _ | ⟨⟩⟩ <;> rfl
    · simp only [h, if_false]
  cases o <;> simp only [step, Caught.qStep, push, pop, front, back, setFront, setBack, Caught.qPush, Caught.qPop, Caught.qFront,
    Caught.qBack, Caught.qSetFront, Caught.qSetBack, hpush, hpop]

/-- **C151, unsound policies.** A policy that lets one unsafe call through breaks the queue: whatever the policy, once a full queue has taken
a further element, `size` is more than the capacity and the oldest element is lost to `front`. -/
theorem C151_unsound_fails {P : Policy E W} {N : Nat} {mv : α → α} (hN : N + 1 < szMod) (hpos : 0 < N) (d x : α) (ops : List (Op α)) {w w1 w2 : W}
    {l : List α} {rs : List (Option (Out α))} (h : history (guarded P N) ops ([], w) = .ok (l, w1) rs) (hl : l.length = N)
    (hp : P (.push N N) w1 = (w2, .returns)) :
    ∃ q q', history (step P N mv) ops (init N d, w) = .ok (q, w1) rs ∧ step P N mv (.push x) (q, w1) = .ok (q', w2) (.val x) ∧
      q'.size = N + 1 ∧ ∀ w3 w4, P (.pop (N + 1)) w3 = (w4, .returns) → step P N mv .front (q', w3) = .ok (q', w4) (.val x) := by
  have hN' : N < szMod := by omega
  have hf := history_follows (P := P) (mv := mv) hN' ops (w := w) (rep_init N d) (by simp [h])
  rw [h] at hf
  generalize hb : history (step P N mv) ops (init N d, w) = b at hf
  cases hf with
  | @ok _ _ _ q h1 =>
    have hsz : q.size = N := by rw [h1.size, hl]
    have hpl := h1.popLt hpos
    have hidx : (if szInc q.pushIndex = N then 0 else szInc q.pushIndex) = q.popIndex := by
      have hpi : q.pushIndex = if q.popIndex = 0 then N - 1 else q.popIndex - 1 := by
        have := h1.pushEq
        rw [hl] at this
        rw [this]
        split
        · omega
        · split <;> split <;> omega
      have hlt : q.pushIndex < N := by rw [hpi]; split <;> omega
      rw [szInc_of_lt (n := N) hlt hN', hpi]
      split <;> split <;> omega
    refine ⟨q, { q with storage := q.storage.set q.popIndex x, pushIndex := q.popIndex, size := N + 1 }, rfl, ?_, rfl, ?_⟩
    · have hinc : szInc N = N + 1 := szInc_of_lt (n := N + 1) (by omega) hN
      simp [step, push, ask, hsz, hp, Res.andThen, hidx, need, arrSet, h1.len, hpl, hinc]
    · intro w3 w4 hp4
      simp [step, front, ask, hp4, Res.andThen, need, arrGet, h1.len, hpl]

/-! ## Examples -/

example : history (guarded marking 2) [.push 4, .push 5, .push 6, .pop, .size, .push 7, .back, .pop, .pop, .pop] ([], 0) =
    .ok ([], 2) [some (.val 4), some (.val 5), none, some (.val 4), some (.nat 1), some (.val 7), some (.val 7), some (.val 5), some (.val 7),
      none] := rfl

example : peak 5 [] ([.push 1, .push 2, .pop, .push 3, .clear, .push 4] : List (Op Nat)) = 2 := rfl

example : history (step (reserving 1) 3 id) [.push 4, .push 5, .push 6, .size] (init 3 0, ()) =
    .ok (⟨[4, 5, 0], 1, 0, 2⟩, ()) [some (.val 4), some (.val 5), none, some (.nat 2)] := by decide

example : history (step (reserving 1) 3 id) [.push 4, .pop, .front, .size] (init 3 0, ()) = .terminated := by decide

example : history (step (unsafely : Policy Unit Unit) 2 id) [.push 4, .push 5, .push 6, .size, .front] (init 2 0, ()) =
    .ok (⟨[6, 5], 0, 0, 3⟩, ()) [some (.val 4), some (.val 5), some (.val 6), some (.nat 3), some (.val 6)] := by decide

/-- A policy of which the theorems speak: it refuses every third check and keeps count. -/
def grumpy : Policy Nat Nat
  | .push size capacity, w => (w + 1, if size < capacity ∧ w % 3 ≠ 2 then .returns else .throws w)
  | .pop size, w => (w + 1, if 0 < size ∧ w % 3 ≠ 2 then .returns else .throws w)

example : Sound grumpy := by
  intro c w h
  cases c <;> simp only [grumpy] at h <;> split at h <;> first | (rename_i hc; exact hc.1) | simp at h

example : history (step grumpy 2 id) [.push 4, .push 5, .pop, .pop] (init 2 0, 0) =
    .ok (⟨[4, 5], 1, 1, 1⟩, 4) [some (.val 4), some (.val 5), none, some (.val 4)] := by decide

end Verif.Policy
