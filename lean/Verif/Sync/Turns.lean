import Verif.Sync.PropsTicket

/-!
# Locks of tickets that wrap around

The lock of `Verif.Sync.PropsTicket`, without a bound on how often it is taken: the tickets may wrap around as often as they will, if there
are not more threads than values of the atomics, each thread ends its turn before it takes another ticket, and tickets are taken with
an order that both acquires and releases (/repo/include/stdx/atomic.hpp):

```
auto const ticket = next.fetch_add(1, std::memory_order_acq_rel);
while (serving.load(std::memory_order_acquire) != ticket) {}
// the thread has its turn
serving.store(U(ticket + 1), std::memory_order_release);
```
-/

namespace Verif.Sync

open Verif.Conc Verif.BitOps

variable {κ γ δ : Type} {D : Decls κ γ} [DecidableEq κ] [DecidableEq γ]

/-! ## Executions -/

/-- Coherence between threads, [intro.races]: what happens before a call of an atomic, it does not contradict.  (`Histories` asks this
only of the calls of one thread; the guarantees behind atomic.hpp:52-118.) -/
def Consistent (threads : List (List (Event D δ))) : Prop :=
  ∀ (a : γ) (t n t' n' : Nat) r r', eventAt threads t n = some (.num a r) → eventAt threads t' n' = some (.num a r') →
    HB threads t n t' n' → Coherent r.acc r'.acc

/-- At its event `x`, thread `t` has its turn with the ticket that it took at its event `n`: it has seen the ticket by an acquiring load
and made no other calls of `b` than loads since it took the ticket. (atomic.hpp:52-55, 74-77, 90-93) -/
def TurnBy (threads : List (List (Event D δ))) (a b : γ) (t x n : Nat) : Prop :=
  ∃ r v l mo u acc, n < l ∧ l < x ∧ eventAt threads t n = some (.num a r) ∧ IsTake r.call ∧ r.res = some v ∧
    eventAt threads t l = some (.num b ⟨(.load, mo), some u, acc⟩) ∧ u.toNat = v.toNat ∧ (mo = none ∨ ∃ o, mo = some o ∧ Acquiring o) ∧
    ∀ y q, n < y → y < x → eventAt threads t y = some (.num b q) → q.call.1 = .load

/-- Orders that acquire and release. (The orders of atomic.hpp:74-77 and 90-93.) -/
def Both (o : MOrd) : Prop := Acquiring o ∧ Releasing o

/-- How the two atomics of `w` bits are used: tickets are taken from `a`, with an order that satisfies `ord`, by threads that have
ended their turns; who has its turn may store the ticket that follows its own in `b`, with an order that releases, which ends the turn. Both may be
loaded by anyone. (atomic.hpp:52-67, 74-77, 90-93) -/
structure TurnUse (w : Nat) (ord : MOrd → Prop) (threads : List (List (Event D δ))) (a b : γ) : Prop where
  take : ∀ t n r, eventAt threads t n = some (.num a r) → r.call.1 = .load ∨ IsTake r.call ∧ ord (aorder D.dflt r.call.1 r.call.2) ∧
    ∀ n' r', n' < n → eventAt threads t n' = some (.num a r') → IsTake r'.call →
      ∃ z q, n' < z ∧ z < n ∧ eventAt threads t z = some (.num b q) ∧ q.call.1 ≠ .load
  serve : ∀ t x q, eventAt threads t x = some (.num b q) → q.call.1 = .load ∨
    ∃ n r v u, TurnBy threads a b t x n ∧ eventAt threads t n = some (.num a r) ∧ r.res = some v ∧ u.toNat = (v.toNat + 1) % 2 ^ w ∧
      (q.call.1 = .store u ∨ q.call.1 = .assign u) ∧ Releasing (aorder D.dflt q.call.1 q.call.2)

/-! ## Programs -/

/-- Where a thread is: outside, waiting with a ticket, or in its turn. (A client of atomic.hpp:52-118.) -/
inductive Stage where
  | idle
  | waiting (v : Nat)
  | inside (v : Nat)

/-- What a thread may do at any time: other things than to change one of the two atomics or use what is protected. (A client of
atomic.hpp:52-118.) -/
def Free (a b : γ) (P : δ → Prop) (e : Event D δ) : Prop :=
  (∀ r, e = .num a r → r.call.1 = .load) ∧ (∀ r, e = .num b r → r.call.1 = .load) ∧ ∀ d m, P d → e ≠ .plain d m

/-- What a thread may do, and where it is then. (A client of atomic.hpp:52-118: `fetch_add` and `++` at 74-77 and 90-93, `load`, `store` and `=`
at 52-67.) -/
inductive Step (w : Nat) (ord : MOrd → Prop) (a b : γ) (P : δ → Prop) : Stage → Event D δ → Stage → Prop
  | other (s e) (h : Free a b P e) : Step w ord a b P s e s
  | take (r v) (h : IsTake r.call) (ho : ord (aorder D.dflt r.call.1 r.call.2)) (hv : r.res = some v) :
      Step w ord a b P .idle (.num a r) (.waiting v.toNat)
  | enter (mo u acc) (ho : mo = none ∨ ∃ o, mo = some o ∧ Acquiring o) :
      Step w ord a b P (.waiting u.toNat) (.num b ⟨(.load, mo), some u, acc⟩) (.inside u.toNat)
  | access (v d m) : Step w ord a b P (.inside v) (.plain d m) (.inside v)
  | leave (v q u) (hq : q.call.1 = .store u ∨ q.call.1 = .assign u) (hu : u.toNat = (v + 1) % 2 ^ w)
      (ho : Releasing (aorder D.dflt q.call.1 q.call.2)) : Step w ord a b P (.inside v) (.num b q) .idle

/-- What a thread has done so far, and where it is. (A client of atomic.hpp:52-118.) -/
inductive Runs (w : Nat) (ord : MOrd → Prop) (a b : γ) (P : δ → Prop) : List (Event D δ) → Stage → Prop
  | start : Runs w ord a b P [] .idle
  | step (l e s s') (h : Runs w ord a b P l s) (he : Step w ord a b P s e s') : Runs w ord a b P (l ++ [e]) s'

end Verif.Sync
