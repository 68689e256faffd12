import Verif.Channel.Model
import Verif.Sync.PropsMany
import Verif.Sync.Spec

/-!
# Model of a ring without locks  (/repo/include/stdx/atomic.hpp)

One thread sends, another one receives; `N` places, and two counters of the unsigned type `U` (`w` bits) that may wrap around:

```
auto send(T x) -> bool {                    // thread P
    auto const t = tail.load(any_order);
    if (U(t - head.load(std::memory_order_acquire)) == N) { return false; }
    slots[t % N] = x;
    tail.store(U(t + 1), std::memory_order_release);
    return true;
}
auto receive() -> std::optional<T> {        // thread C
    auto const h = head.load(any_order);
    if (tail.load(std::memory_order_acquire) == h) { return {}; }
    auto x = std::move(slots[h % N]);
    head.store(U(h + 1), std::memory_order_release);
    return x;
}
```

The executions are those of `Verif/Sync/Many.lean`; the places are data that is not atomic, as in `Verif/Channel/Model.lean`.
-/

namespace Verif.Ring

open Verif.Sync

variable {κ γ δ : Type} {D : Decls κ γ} [DecidableEq κ] [DecidableEq γ] {α : Type}

/-- The thread has loaded its own counter (`v`) and, with an order that acquires, the other one, both since it has last changed its own, and the
comparison of the two was as required. (Calls of atomic.hpp:52-55.) -/
def Asked (threads : List (List (Event D δ))) (mine other : γ) (t n : Nat) (ok : Nat → Nat → Prop) (v : Nat) : Prop :=
  ∃ l0 mo0 v' acc0 l mo u acc, l0 < n ∧ l < n ∧
    eventAt threads t l0 = some (.num mine ⟨(.load, mo0), some v', acc0⟩) ∧
    eventAt threads t l = some (.num other ⟨(.load, mo), some u, acc⟩) ∧ (mo = none ∨ ∃ o, mo = some o ∧ Acquiring o) ∧
    v'.toNat = v ∧ ok v u.toNat ∧
    (∀ y q, l0 ≤ y → y < n → eventAt threads t y = some (.num mine q) → q.call.1 = .load) ∧
    (∀ y q, l ≤ y → y < n → eventAt threads t y = some (.num mine q) → q.call.1 = .load)

/-- `t - h != N`, in numbers of `w` bits (the values of atomic.hpp:52-55). -/
def NotFull (w N t h : Nat) : Prop := (t + 2 ^ w - h) % 2 ^ w ≠ N

/-- `t != h` (the values of atomic.hpp:52-55). -/
def NotEmpty (h t : Nat) : Prop := t ≠ h

/-- A call of a counter: a load, or its owner stores the next value, with an order that releases, after it has asked. (atomic.hpp:52-67) -/
def CounterCall (threads : List (List (Event D δ))) (w : Nat) (mine other : γ) (owner : Nat) (ok : Nat → Nat → Prop) (t n : Nat)
    (r : Rec (ACall (D.C mine)) (Option (BitVec (D.C mine).w))) : Prop :=
  r.call.1 = .load ∨ (t = owner ∧ ∃ v u, Asked threads mine other owner n ok v ∧ u.toNat = (v + 1) % 2 ^ w ∧
    (r.call.1 = .store u ∨ r.call.1 = .assign u) ∧ Releasing (aorder D.dflt r.call.1 r.call.2))

/-- The execution is one of the two functions above, called by the threads `P` and `C`, as often as they like: how the counters (atomic.hpp:52-67)
and the places are used. -/
structure Use (threads : List (List (Event D δ))) (w N : Nat) (tail head : γ) (P C : Nat) (slot : Nat → δ) : Prop where
  tailCalls : ∀ t n r, eventAt threads t n = some (.num tail r) → CounterCall threads w tail head P (NotFull w N) t n r
  headCalls : ∀ t n r, eventAt threads t n = some (.num head r) → CounterCall threads w head tail C NotEmpty t n r
  slots : ∀ t n i m, i < N → eventAt threads t n = some (.plain (slot i) m) →
    (t = P ∧ ∃ v, Asked threads tail head P n (NotFull w N) v ∧ i = v % N) ∨
    (t = C ∧ ∃ v, Asked threads head tail C n NotEmpty v ∧ i = v % N)

/-- Thread `t` has not changed its counter from event `x` to event `y`. (atomic.hpp:57-67) -/
def Same (threads : List (List (Event D δ))) (mine : γ) (t x y : Nat) : Prop :=
  ∀ z q, x ≤ z → z < y → eventAt threads t z = some (.num mine q) → q.call.1 = .load

/-- Each time, one place is used before the counter is changed, and not more than one between two changes of it; both uses change
the place. (Changes of the counters by atomic.hpp:57-67.) -/
structure Once (threads : List (List (Event D δ))) (N : Nat) (mine : γ) (t : Nat) (slot : Nat → δ) : Prop where
  used : ∀ n r, eventAt threads t n = some (.num mine r) → r.call.1 ≠ .load →
    ∃ x i m, x < n ∧ i < N ∧ eventAt threads t x = some (.plain (slot i) m) ∧ Same threads mine t x n
  once : ∀ x y i j m m', i < N → j < N → x < y → eventAt threads t x = some (.plain (slot i) m) →
    eventAt threads t y = some (.plain (slot j) m') → ¬ Same threads mine t x y
  writes : ∀ x i m, i < N → eventAt threads t x = some (.plain (slot i) m) → m = true

/-- An execution in which `P` sends and `C` receives; both counters have the same number of bits, which suffices to tell a full ring from an
empty one, and wrap around at a multiple of `N` (else `t % N` would jump). Happens-before has no cycles ([intro.races]). (The calls of
atomic.hpp:52-67.) -/
structure Run (c0 : (k : κ) → BitVec (D.w k)) (v0 : (a : γ) → BitVec (D.C a).w) (threads : List (List (Event D δ))) (w N : Nat) (tail head : γ)
    (P C : Nat) (slot : Nat → δ) : Prop where
  decls : D.Ok
  histories : Histories c0 v0 threads
  tailWidth : (D.C tail).w = w
  headWidth : (D.C head).w = w
  tailZero : v0 tail = 0#_
  headZero : v0 head = 0#_
  divides : N ∣ 2 ^ w
  fewer : N < 2 ^ w
  two : P ≠ C
  acyclic : ∀ p, ¬ Channel.Before threads p p
  use : Use threads w N tail head P C slot

/-- What is done with a place: a value is put there, or moved out. (The changes of places lie between the calls of atomic.hpp:52-67.) -/
inductive CellOp (α : Type) where
  | put (x : α)
  | take

/-- A place; `mv` is what is left of a value that has been moved out. (The changes of places lie between the calls of atomic.hpp:52-67.) -/
def cell (mv : α → α) (s : α) : CellOp α → Outcome (α × Option α)
  | .put x => .ok (x, none)
  | .take => .ok (mv s, some s)

/-- Thread `P` puts values, at its event `n` the value `val n`; others take them. (The changes of places lie between the calls of
atomic.hpp:52-67.) -/
def cellOp (P : Nat) (val : Nat → α) (p : Nat × Nat) : CellOp α := if p.1 = P then .put (val p.2) else .take

end Verif.Ring
