import Verif.AtomicBitset.Model

/-!
# Identifiers shared by threads

A client's program over /repo/include/stdx/atomic_bitset.hpp and bitset.hpp: threads acquire and release identifiers
below `N`, with one `atomic_bitset<N>` of those in use.

```
auto acquire(int tries) {
    for (; tries > 0; --tries) {
        auto const i = used.load(order).lowest_unset();
        if (not (i < N)) { return full; }
        if (not used.set(i, true, order)[i]) { return got(i); }
    }
    return busy;
}
```
-/

namespace Verif.Shared

open Verif.Conc Verif.Bitset

/-- What a call gives: an identifier was acquired, all were in use, the tries were used up, an identifier was released. -/
inductive Res where
  | got (i : Nat)
  | full
  | busy
  | gave (i : Nat)
  deriving DecidableEq, Repr

/-- What a thread does next: acquire an identifier, or release the one at position `j` of those it holds (nothing, if it holds fewer). -/
inductive Cmd where
  | acquire
  | release (j : Nat)

/-- `if (not used.set(i, true, order)[i]) { return got(i); }` (atomic_bitset.hpp:124-134, bitset.hpp:261-269), and what is done otherwise. -/
def take {w : Nat} (N i : Nat) (again : Prog w Res) : Prog w Res :=
  (AtomicBitset.impl N (.set i true)).bind fun r =>
    match r with
    | some b => (Prog.ofOutcome (Bitset.get b i)).bind fun taken => if taken then again else .ret (.got i)
    | none => .ub

/-- `acquire(tries)`: `load` (atomic_bitset.hpp:109-112), `lowest_unset` (bitset.hpp:379-413), and `take`. -/
def acquire {w : Nat} (N : Nat) : Nat → Prog w Res
  | 0 => .ret .busy
  | tries + 1 =>
    (AtomicBitset.impl N .load).bind fun r =>
      match r with
      | some b => (Prog.ofOutcome (Bitset.lowestUnset b)).bind fun i =>
        if i < N then take N i (acquire N tries) else .ret .full
      | none => .ub

/-- The identifiers a thread holds after a call of `acquire`. -/
def Res.hold (held : List Nat) : Res → List Nat
  | .got i => held ++ [i]
  | _ => held

/-- A thread with the identifiers it holds and what its calls have given, oldest first; it acquires with the given number of
tries, and releases by `used.reset(i, order)` (atomic_bitset.hpp:160-166). -/
def thread {w : Nat} (N tries : Nat) : List Cmd → List Nat → List Res → Prog w (List Nat × List Res)
  | [], held, log => .ret (held, log)
  | .acquire :: cs, held, log =>
    (acquire N tries).bind fun r => thread N tries cs (r.hold held) (log ++ [r])
  | .release j :: cs, held, log =>
    match held[j]? with
    | none => thread N tries cs held log
    | some i => (AtomicBitset.impl N (.reset i)).bind fun _ => thread N tries cs (held.eraseIdx j) (log ++ [.gave i])

/-- The threads at the start, with the storage `c0` of the bitset (atomic_bitset.hpp:66-84). -/
def threads {w : Nat} (N tries : Nat) (progs : List (List Cmd)) : List (Prog w (List Nat × List Res)) :=
  progs.map fun cs => thread N tries cs [] []

end Verif.Shared
