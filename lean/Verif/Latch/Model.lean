import Verif.Sync.PropsMany
import Verif.Sync.PropsAtomic

/-!
# Model of a latch  (/repo/include/stdx/atomic.hpp)

`N` threads arrive, each once, and any threads wait for all of them:

```
auto remaining = stdx::atomic<U>{N};

// thread t < N
parts[t] = ...;
remaining.fetch_sub(1, std::memory_order_release);      // or --remaining and so on

// any thread
while (remaining.load(std::memory_order_acquire) != 0) {}
// all parts can be read
```

The executions are those of `Verif/Sync/Many.lean`.
-/

namespace Verif.Latch

open Verif.Sync

variable {κ γ δ : Type} {D : Decls κ γ} [DecidableEq κ] [DecidableEq γ]

/-- Calls that count down by one. (atomic.hpp:78-81, 84, 94-101) -/
def IsArrive {C : Atomic.Cfg} (c : ACall C) : Prop := c.1 = .fetchSub 1#C.w ∨ c.1 = .subAssign 1#C.w ∨ c.1 = .preDec ∨ c.1 = .postDec

/-- Thread `t` arrives at its event `n`. (atomic.hpp:78-81, 84, 94-101) -/
def Arrives (threads : List (List (Event D δ))) (a : γ) (t n : Nat) : Prop := ∃ r, eventAt threads t n = some (.num a r) ∧ IsArrive r.call

/-- Thread `t` finds at its event `l` that all have arrived. (atomic.hpp:52-55) -/
def Passes (threads : List (List (Event D δ))) (a : γ) (t l : Nat) : Prop :=
  ∃ mo acc, eventAt threads t l = some (.num a ⟨(.load, mo), some 0#_, acc⟩) ∧ (mo = none ∨ ∃ o, mo = some o ∧ Acquiring o)

/-- An execution in which the atomic `a`, which is `N` at first, is only loaded and counted down, by the threads below `N`, once each, with an
order that satisfies `ord`. (A client of atomic.hpp:52-101.) -/
structure Run (ord : MOrd → Prop) (c0 : (k : κ) → BitVec (D.w k)) (v0 : (a : γ) → BitVec (D.C a).w) (threads : List (List (Event D δ)))
    (a : γ) (N : Nat) : Prop where
  decls : D.Ok
  histories : Histories c0 v0 threads
  fits : N < 2 ^ (D.C a).w
  start : v0 a = BitVec.ofNat _ N
  calls : ∀ t n r, eventAt threads t n = some (.num a r) → r.call.1 = .load ∨ IsArrive r.call ∧ t < N ∧ ord (aorder D.dflt r.call.1 r.call.2)
  once : ∀ t n n', Arrives threads a t n → Arrives threads a t n' → n = n'

/-- The datum `d` is used by one of the `N` threads as long as it has not arrived, and read by those who have found that all have arrived. (The
accesses are between the calls of atomic.hpp:52-101.) -/
def Part (threads : List (List (Event D δ))) (a : γ) (N : Nat) (d : δ) : Prop :=
  ∃ owner, owner < N ∧ ∀ t x m, eventAt threads t x = some (.plain d m) →
    (t = owner ∧ ∀ n, Arrives threads a t n → x < n) ∨ (m = false ∧ ∃ l, l < x ∧ Passes threads a t l)

end Verif.Latch
