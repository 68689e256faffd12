import Verif.Bitset.Model

/-!
# Identifiers: a `bitset` of those that are in use

A client's program over /repo/include/stdx/bitset.hpp, with a `bitset<N>` of words of `w` bits.  All calls are those of the model of the header.
-/

namespace Verif.Ids

open Verif.Bitset (Words)

/-- What the client calls. -/
inductive Cmd where
  | acquire
  | claim (i : Nat)
  | release (i : Nat)
  | claimAll
  | releaseAll
  | swapAll
  | available
  | full

/-- What the client gets. -/
inductive Out where
  | id (i : Option Nat)
  | bool (b : Bool)
  | num (n : Nat)
  | unit
  deriving DecidableEq, Repr

/-- One command.
`acquire`: `auto const i = used.lowest_unset(); if (i < used.size()) { used.set(i); return i; } return nothing;`
`claim`: `if (used[i]) { return false; } used.set(i); return true;`
`release`: `used.reset(i);` `claimAll`: `used.set();` `releaseAll`: `used.reset();` `swapAll`: `used.flip();`
`available`: `return used.size() - used.count();` `full`: `return used.all();`
(bitset.hpp:261-284, 322-345, 360-377, 379-413). -/
def step {w : Nat} (N : Nat) (s : Words w) : Cmd → Outcome (Words w × Out)
  | .acquire => do
    let i ← Bitset.lowestUnset s
    if i < N then do
      let s ← Bitset.set s i true
      return (s, .id (some i))
    else return (s, .id none)
  | .claim i => do
    let b ← Bitset.get s i
    if b then return (s, .bool false)
    else do
      let s ← Bitset.set s i true
      return (s, .bool true)
  | .release i => do
    let s ← Bitset.reset s i
    return (s, .unit)
  | .claimAll => .ok (Bitset.setAll s, .unit)
  | .releaseAll => .ok (Bitset.resetAll s, .unit)
  | .swapAll => .ok (Bitset.flipAll s, .unit)
  | .available => do
    let n ← Bitset.count N s
    return (s, .num (N - n))
  | .full => do
    let b ← Bitset.all N s
    return (s, .bool b)

/-- A history (bitset.hpp:261-413). -/
def run {w : Nat} (N : Nat) (s : Words w) : List Cmd → Outcome (Words w × List Out)
  | [] => .ok (s, [])
  | k :: ks => do
    let (s, r) ← step N s k
    let (s, rs) ← run N s ks
    return (s, r :: rs)

end Verif.Ids
