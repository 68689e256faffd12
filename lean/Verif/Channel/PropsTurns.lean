import Verif.Channel.PropsChannel
import Verif.Sync.PropsTurnsProgram

/-!
# Queues shared by threads, with tickets that wrap around (C153)

The queue of `Verif.Channel.PropsChannel`, by programs that take the lock of `Verif.Sync.PropsTurnsProgram` any number of times
(/repo/include/stdx/cx_queue.hpp, /repo/include/stdx/atomic.hpp).
-/

namespace Verif.Channel

open Verif.CxQueue Verif.Sync Verif.Conc

variable {κ γ δ α : Type} {D : Decls κ γ} [DecidableEq κ] [DecidableEq γ]

/-- **C153, programs.** Threads, not more than two atomics have values, that each run: take a ticket, wait for it, use the queue, end the turn, and so on
without end: the queue is a channel, and the operations give the results they would give if they had been done in the order in which the tickets
were taken, however often the tickets wrap around. -/
theorem C153_program {w : Nat} {a b : γ} (hab : a ≠ b) (hD : D.Ok) {c0 : (k : κ) → BitVec (D.w k)} {v0 : (a : γ) → BitVec (D.C a).w}
    {threads : List (List (Event D δ))} (hx : Histories c0 v0 threads) (hc : Consistent threads) (d : δ)
    (hrun : ∀ l ∈ threads, ∃ s, Runs w Both a b (· = d) l s) (ha : (D.C a).w = w) (ha0 : v0 a = 0#_) (hb0 : v0 b = 0#_)
    (hM : threads.length ≤ 2 ^ w) {c : Cfg α} (hN : c.N < szMod) {x0 : α} {op : Nat × Nat → Op α} {pre : Nat × Nat → Queue α}
    (hp : Plain (step c) (CxQueue.init c.N x0) threads d op pre) :
    (∃ L, Sequential c.N threads d op (result (step c) op pre) L ∧
      L.Pairwise fun p q => ∀ n n' r r' j j', TurnBy threads a b p.1 p.2 n → TurnBy threads a b q.1 q.2 n' →
        eventAt threads p.1 n = some (.num a r) → eventAt threads q.1 n' = some (.num a r') → r.acc = .write j → r'.acc = .write j' →
          j ≤ j') ∧
    Fifo c.N threads d op (result (step c) op pre) := by
  have hr := C155_program hab hD hx hc hrun ha ha0 hb0 hM d rfl
  obtain ⟨L, hL⟩ := C153_sequential hN hp hr
  refine ⟨⟨L, hL, hL.order.imp_of_mem fun {p q} hpL hqL hpq n n' r r' j j' hn hn' h1 h2 h3 h4 => Nat.le_of_not_lt fun hlt => ?_⟩, fifo_of hL⟩
  have := C155_in_order hD hx hc (program_use hab hrun).1 ha ha0 hb0 hM ((hL.all q).mp hqL) ((hL.all p).mp hpL) hn' hn h2 h1 h4 h3 hlt
  exact hp.acyclic p (HB.trans _ _ _ _ _ _ hpq this)

/-! ## Example -/

/-- The number of the turn in `late`. -/
def turnOf (p : Nat × Nat) : Nat := if p.1 = 0 then p.2 / 4 else 256

/-- Values are sent in turn 0, 1, 4, 5 and so on, and received in the others. -/
def alternate (p : Nat × Nat) : Op Nat := if turnOf p % 4 < 2 then .send (turnOf p) else .receive

/-- What the first `i` turns leave. -/
def leaves : Nat → Queue Nat
  | 0 => CxQueue.init 3 0
  | i + 1 => match step three (leaves i) (if i % 4 < 2 then .send i else .receive) with
    | .ok (q, _) => q
    | _ => leaves i

theorem late_ops {p : Nat × Nat} (h : IsOp (late .acqRel 256) 3 p) : (∃ i, i < 256 ∧ p = (0, 4 * i + 2)) ∨ p = (1, 2) := by
  obtain ⟨t, x⟩ := p
  rcases late_at h with ⟨rfl, i, hi, ⟨_, g⟩ | ⟨_, g⟩ | ⟨rfl, _⟩ | ⟨_, g⟩⟩ | ⟨rfl, ⟨_, g⟩ | ⟨_, g⟩ | ⟨rfl, _⟩⟩
  · cases g
  · cases g
  · exact .inl ⟨i, hi, rfl⟩
  · cases g
  · cases g
  · cases g
  · exact .inr rfl

theorem turnOf_first (i : Nat) : turnOf (0, 4 * i + 2) = i := by
  simp only [turnOf, if_true]
  omega

/-- Turn `i` of `late` is an operation. -/
theorem late_op {i : Nat} (hi : i ≤ 256) : ∃ p, IsOp (late .acqRel 256) 3 p ∧ turnOf p = i := by
  by_cases h : i < 256
  · exact ⟨(0, 4 * i + 2), late_first .acqRel 256 h (k := 2) (by decide), turnOf_first i⟩
  · exact ⟨(1, 2), rfl, by simp [turnOf]; omega⟩

theorem late_before {p q : Nat × Nat} (hp : IsOp (late .acqRel 256) 3 p) (hq : IsOp (late .acqRel 256) 3 q) :
    Before (late .acqRel 256) p q ↔ turnOf p < turnOf q := by
  constructor
  · intro h
    rcases late_ops hp with ⟨i, hi, rfl⟩ | rfl <;> rcases late_ops hq with ⟨j, hj, rfl⟩ | rfl <;> rcases late_hb h with ⟨h1, h2⟩ | ⟨h1, h2, _⟩
    · rw [turnOf_first, turnOf_first]
      omega
    · cases h2
    · cases h1
    · rw [turnOf_first]
      exact hi
    · cases h1
    · cases h1
    · omega
    · cases h1
  · intro h
    rcases late_ops hp with ⟨i, hi, rfl⟩ | rfl <;> rcases late_ops hq with ⟨j, hj, rfl⟩ | rfl
    · rw [turnOf_first, turnOf_first] at h
      exact .same _ _ _ _ _ hp hq (by show 4 * i + 2 < 4 * j + 2; omega)
    · exact C155_in_order (w := 8) (a := false) (b := true) desk_ok (late_histories .acqRel (by decide)) (late_consistent (.inl rfl))
        (late_use (show Both .acqRel from ⟨.inr (.inl rfl), .inr (.inl rfl)⟩) 256) rfl rfl rfl (by decide) hp hq
        (late_turn_first .acqRel 256 hi (.inl rfl)) (late_turn_second .acqRel (.inr rfl))
        (late_first .acqRel 256 hi (k := 0) (by decide)) rfl rfl rfl hi
    · rw [turnOf_first] at h
      simp [turnOf] at h
      omega
    · simp [turnOf] at h

theorem late_queue : Plain (step three) (CxQueue.init 3 0) (late .acqRel 256) 3 alternate (fun p => leaves (turnOf p)) := by
  refine ⟨fun p h => ?_, fun p hp hno => ?_, fun p q hp hq hpq hno s r hs => ?_⟩
  · rcases late_hb h with ⟨_, h⟩ | ⟨h, h', _⟩
    · exact Nat.lt_irrefl _ h
    · omega
  · have : turnOf p = 0 := by
      by_contra hne
      obtain ⟨q, hq, h0⟩ := late_op (i := 0) (by decide)
      exact hno q hq ((late_before hq hp).2 (by omega))
    show leaves (turnOf p) = _
    rw [this]
    rfl
  · have hlt := (late_before hp hq).1 hpq
    have hle : turnOf q ≤ 256 := by
      rcases late_ops hq with ⟨i, hi, rfl⟩ | rfl
      · rw [turnOf_first]; omega
      · simp [turnOf]
    have : turnOf q = turnOf p + 1 := by
      by_contra hne
      obtain ⟨u, hu, hu'⟩ := late_op (i := turnOf p + 1) (by omega)
      exact hno u hu ((late_before hp hu).2 (by omega)) ((late_before hu hq).2 (by omega))
    show leaves (turnOf q) = s
    rw [this, leaves]
    have hs' : step three (leaves (turnOf p)) (if turnOf p % 4 < 2 then .send (turnOf p) else .receive) = .ok (s, r) := hs
    rw [hs']

example : Fifo 3 (late .acqRel 256) 3 alternate (result (step three) alternate fun p => leaves (turnOf p)) :=
  (C153_program (w := 8) (a := false) (b := true) (by decide) desk_ok (late_histories .acqRel (by decide)) (late_consistent (.inl rfl)) 3
    (late_run (show Both .acqRel from ⟨.inr (.inl rfl), .inr (.inl rfl)⟩) (.inr rfl)) rfl rfl rfl (by decide) (c := three) (by decide)
    late_queue).2

end Verif.Channel
