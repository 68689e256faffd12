import Verif.SeqCst.Model

/-!
# Model of a lock made of one flag per thread  (/repo/include/stdx/atomic.hpp)

```
flag[me].store(1);
bool alone = true;
for (auto you : others) { alone = alone and flag[you].load() == 0; }
if (alone) {
    // the data can be used
}
flag[me].store(0, std::memory_order_release);
```

Any numbers other than 0 will do in place of 1. The executions are those of `Verif/Sync/Many.lean`, with the total order of
`Verif/SeqCst/Model.lean`; the data is not atomic.
-/

namespace Verif.FlagLock

open Verif.Sync

variable {κ γ δ : Type} {D : Decls κ γ} [DecidableEq κ] [DecidableEq γ]

/-- An execution in which each flag is changed only by its thread, by stores with an order that releases. (A client of atomic.hpp: `load`,
`store` and `=` at 52-67.) -/
structure Run (c0 : (k : κ) → BitVec (D.w k)) (v0 : (a : γ) → BitVec (D.C a).w) (threads : List (List (Event D δ))) (flag : Nat → γ) : Prop where
  decls : D.Ok
  histories : Histories c0 v0 threads
  order : ∃ S, SeqCst.SingleOrder threads S
  own : ∀ t u n r, u < threads.length → eventAt threads t n = some (.num (flag u) r) → r.call.1 = .load ∨
    t = u ∧ (∃ v, r.call.1 = .store v ∨ r.call.1 = .assign v) ∧ Releasing (aorder D.dflt r.call.1 r.call.2)

/-- Thread `t` has raised its flag at its event `n`, has found the flags of all others 0 since, and has not changed its own again before its event
`x`; `st` and `ld` are what is asked of the orders. (A client of atomic.hpp: `load`, `store` and `=` at 52-67.) -/
structure Inside (st ld : MOrd → Prop) (threads : List (List (Event D δ))) (flag : Nat → γ) (t x n : Nat) : Prop where
  before : n < x
  raised : ∃ r v, eventAt threads t n = some (.num (flag t) r) ∧ (r.call.1 = .store v ∨ r.call.1 = .assign v) ∧ v ≠ 0#_ ∧
    st (aorder D.dflt r.call.1 r.call.2)
  kept : ∀ y r, n < y → y < x → eventAt threads t y = some (.num (flag t) r) → r.call.1 = .load
  asked : ∀ u, u < threads.length → u ≠ t → ∃ l r, n < l ∧ l < x ∧ eventAt threads t l = some (.num (flag u) r) ∧ r.call.1 = .load ∧
    r.res = some 0#_ ∧ ld (aorder D.dflt r.call.1 r.call.2)

/-- The data is used only by threads that are inside. (A client of atomic.hpp: `load`, `store` and `=` at 52-67.) -/
def Guarded (st ld : MOrd → Prop) (threads : List (List (Event D δ))) (flag : Nat → γ) (d : δ) : Prop :=
  ∀ t x m, eventAt threads t x = some (.plain d m) → ∃ n, Inside st ld threads flag t x n

end Verif.FlagLock
