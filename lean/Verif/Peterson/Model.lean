import Verif.SeqCst.Model

/-!
# Model of a lock for two threads that wait for each other (Peterson's)  (/repo/include/stdx/atomic.hpp)

```
flag[me].store(1);
turn.store(you);
while (flag[you].load() != 0 and turn.load(std::memory_order_acquire) == you) {}
// the data can be used
flag[me].store(0, std::memory_order_release);
```

`me` and `you` are 0 and 1 or the other way round. Any numbers other than 0 will do for a raised flag. The executions are those of
`Verif/Sync/Many.lean`, with the total order of `Verif/SeqCst/Model.lean`; the data is not atomic.
-/

namespace Verif.Peterson

open Verif.Sync

variable {κ γ δ : Type} {D : Decls κ γ} [DecidableEq κ] [DecidableEq γ]

/-- An execution in which each of the two flags is changed only by its thread, and `turn` only by the two threads, each of which stores the number
of the other one, all with orders that release. (A client of atomic.hpp: `load`, `store` and `=` at 52-67.) -/
structure Run (c0 : (k : κ) → BitVec (D.w k)) (v0 : (a : γ) → BitVec (D.C a).w) (threads : List (List (Event D δ))) (flag : Nat → γ)
    (turn : γ) : Prop where
  decls : D.Ok
  histories : Histories c0 v0 threads
  order : ∃ S, SeqCst.SingleOrder threads S
  own : ∀ t u n r, u < 2 → eventAt threads t n = some (.num (flag u) r) → r.call.1 = .load ∨
    t = u ∧ (∃ v, r.call.1 = .store v ∨ r.call.1 = .assign v) ∧ Releasing (aorder D.dflt r.call.1 r.call.2)
  turns : ∀ t n r, eventAt threads t n = some (.num turn r) → r.call.1 = .load ∨
    t < 2 ∧ (∃ v, (r.call.1 = .store v ∨ r.call.1 = .assign v) ∧ v.toNat = 1 - t) ∧ Releasing (aorder D.dflt r.call.1 r.call.2)

/-- Thread `t` has raised its flag at its event `n`, has given the turn to the other thread at its event `k`, and has then found either that the flag of
the other is 0 or that the turn is its own; it has not changed its flag or the turn again before its event `x`. What is asked of the orders of the two
stores and of the loads of flags is `ord`. (A client of atomic.hpp: `load`, `store` and `=` at 52-67.) -/
structure Inside (ord : MOrd → Prop) (threads : List (List (Event D δ))) (flag : Nat → γ) (turn : γ) (t x n k : Nat) : Prop where
  before : n < k ∧ k < x
  raised : ∃ r v, eventAt threads t n = some (.num (flag t) r) ∧ (r.call.1 = .store v ∨ r.call.1 = .assign v) ∧ v ≠ 0#_ ∧
    ord (aorder D.dflt r.call.1 r.call.2)
  kept : ∀ y r, n < y → y < x → eventAt threads t y = some (.num (flag t) r) → r.call.1 = .load
  gave : ∃ r, eventAt threads t k = some (.num turn r) ∧ r.call.1 ≠ .load ∧ ord (aorder D.dflt r.call.1 r.call.2)
  left : ∀ y r, k < y → y < x → eventAt threads t y = some (.num turn r) → r.call.1 = .load
  asked : (∃ l r, k < l ∧ l < x ∧ eventAt threads t l = some (.num (flag (1 - t)) r) ∧ r.call.1 = .load ∧ r.res = some 0#_ ∧
      ord (aorder D.dflt r.call.1 r.call.2)) ∨
    ∃ l r v, k < l ∧ l < x ∧ eventAt threads t l = some (.num turn r) ∧ r.call.1 = .load ∧ r.res = some v ∧ v.toNat = t ∧
      Acquiring (aorder D.dflt r.call.1 r.call.2)

/-- The data is used only by the two threads, when they are inside. (A client of atomic.hpp: `load`, `store` and `=` at 52-67.) -/
def Guarded (ord : MOrd → Prop) (threads : List (List (Event D δ))) (flag : Nat → γ) (turn : γ) (d : δ) : Prop :=
  ∀ t x m, eventAt threads t x = some (.plain d m) → t < 2 ∧ ∃ n k, Inside ord threads flag turn t x n k

end Verif.Peterson
