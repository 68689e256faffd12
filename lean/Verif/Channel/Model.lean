import Verif.Sync.Many
import Verif.CxQueue.Model

/-!
# Model of a queue that threads share  (/repo/include/stdx/cx_queue.hpp, atomic.hpp, atomic_bitset.hpp)

Threads that use one `cx_queue` as a channel, in executions of `Verif/Sync/Many.lean`: each operation is an access to data that is not atomic.

```
auto try_send(T x) -> bool {
    if (q.full()) { return false; }
    q.push(x);
    return true;
}
auto try_receive() -> std::optional<T> {
    if (q.empty()) { return {}; }
    return q.pop();
}
```
-/

namespace Verif.Channel

open Verif.Sync
open CxQueue (Cfg Queue)

variable {κ γ δ : Type} {D : Decls κ γ} [DecidableEq κ] [DecidableEq γ] {α S O R : Type}

/-- The operations above. (Calls of cx_queue.hpp:52-57, 84-109.) -/
inductive Op (α : Type) where
  | send (x : α)
  | receive
  deriving DecidableEq, Repr

/-- What they return. (Calls of cx_queue.hpp:52-57, 84-109.) -/
inductive Res (α : Type) where
  | sent
  | full
  | got (x : α)
  | nothing
  deriving DecidableEq, Repr

/-- The operations above: `full` (cx_queue.hpp:52-54) before `push` (84-99), `empty` (55-57) before `pop` (101-109). -/
def step (c : Cfg α) (q : Queue α) : Op α → Outcome (Queue α × Res α)
  | .send x =>
    if q.size == c.N then .ok (q, .full)
    else do
      let (q, _) ← CxQueue.push c q x
      return (q, .sent)
  | .receive =>
    if q.size == 0 then .ok (q, .nothing)
    else do
      let ((q, x), _) ← CxQueue.pop c q
      return (q, .got x)

/-- Event `p.2` of thread `p.1` happens before event `q.2` of thread `q.1`. (What the orders of atomic.hpp:52-118 and
atomic_bitset.hpp:86-236 are for.) -/
def Before (threads : List (List (Event D δ))) (p q : Nat × Nat) : Prop := HB threads p.1 p.2 q.1 q.2

/-- Event `p.2` of thread `p.1` is an operation on the object `d`. Simplified: all operations count as changes, and each one is one event,
although it accesses several members (cx_queue.hpp:36-39). -/
def IsOp (threads : List (List (Event D δ))) (d : δ) (p : Nat × Nat) : Prop := eventAt threads p.1 p.2 = some (.plain d true)

/-- What the language says of an object that is not atomic, of an execution without data races: happens-before has no cycles, and an operation
finds the object (`pre`) as the operation has left it that happens before it with no other one between, at first in its initial state
([intro.races], visible side effects; there is nothing about it in the members of cx_queue.hpp:36-39). -/
structure Plain (step : S → O → Outcome (S × R)) (s0 : S) (threads : List (List (Event D δ))) (d : δ) (op : Nat × Nat → O)
    (pre : Nat × Nat → S) : Prop where
  acyclic : ∀ p, ¬ Before threads p p
  first : ∀ p, IsOp threads d p → (∀ q, IsOp threads d q → ¬ Before threads q p) → pre p = s0
  next : ∀ p q, IsOp threads d p → IsOp threads d q → Before threads p q →
    (∀ u, IsOp threads d u → Before threads p u → ¬ Before threads u q) → ∀ s r, step (pre p) (op p) = .ok (s, r) → pre q = s

/-- What an operation returns. (Calls of cx_queue.hpp:52-57, 84-109.) -/
def result (step : S → O → Outcome (S × R)) (op : Nat × Nat → O) (pre : Nat × Nat → S) (p : Nat × Nat) : Outcome R := do
  let (_, r) ← step (pre p) (op p)
  return r

end Verif.Channel
