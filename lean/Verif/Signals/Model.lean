import Verif.AtomicBitset.Model

/-!
# Signals

A client's program over /repo/include/stdx/atomic_bitset.hpp and bitset.hpp: threads (or interrupt handlers) raise signals below `N` in one
`atomic_bitset<N>`, and threads take what is pending and handle it.

```
auto raise(std::size_t i) { pending.set(i, true, order); }

auto take_all() {
    for_each([](auto i) { handle(i); }, pending.reset(0_lsb, msb_t{N - 1}, order));
}

auto take(std::size_t i) {
    if (pending.reset(i, order)[i]) { handle(i); }
}
```
-/

namespace Verif.Signals

open Verif.Conc Verif.Bitset

/-- What a thread does next. (Calls of atomic_bitset.hpp:124-134, 160-175.) -/
inductive Cmd where
  | raise (i : Nat)
  | takeAll
  | take (i : Nat)
  deriving DecidableEq

/-- The signals handled: `for_each` over the bitset that was returned, bitset.hpp:499-507. -/
def handle {w : Nat} (N : Nat) (b : Words w) : Outcome (List Nat) := forEach .setBit N (fun l p => l ++ [p.1]) b []

/-- The three functions; each gives the signals it has handled. `set` (atomic_bitset.hpp:124-134), `reset(lsb, msb)` (168-175), `reset` of a
position (160-166), and `operator[]` of the bitset returned (bitset.hpp:261-269). -/
def impl {w : Nat} (N : Nat) : Cmd → Prog w (List Nat)
  | .raise i => (AtomicBitset.impl N (.set i true)).bind fun _ => .ret []
  | .takeAll => (AtomicBitset.impl N (.resetRange 0 (N - 1))).bind fun r =>
      match r with
      | some b => Prog.ofOutcome (handle N b)
      | none => .ub
  | .take i => (AtomicBitset.impl N (.reset i)).bind fun r =>
      match r with
      | some b => (Prog.ofOutcome (Bitset.get b i)).bind fun was => .ret (if was then [i] else [])
      | none => .ub

/-- Another way to take all, with `load` (atomic_bitset.hpp:109-112) and `reset()` (185-190), which returns no bitset:
`auto b = pending.load(); pending.reset(); for_each(handle, b);` -/
def loadAndReset {w : Nat} (N : Nat) : Prog w (List Nat) :=
  (AtomicBitset.impl N .load).bind fun r =>
    match r with
    | some b => (AtomicBitset.impl N .resetAll).bind fun _ => Prog.ofOutcome (handle N b)
    | none => .ub

end Verif.Signals
