import Verif.IList.Model
import Verif.Bitset.Model

/-!
# Ready queues: an `intrusive_list` for each priority and a `bitset` of the priorities without tasks

A client's program over /repo/include/stdx/intrusive_list.hpp and /repo/include/stdx/bitset.hpp.  There are `N` lists; the `bitset<N>` has a
position for each of them, with words of `w` bits.  All calls are those of the models of the two headers.
-/

namespace Verif.Ready

/-- The lists and their nodes, and the set of priorities without tasks (intrusive_list.hpp:50-58, bitset.hpp:78). -/
structure State (w : Nat) where
  world : IList.World Nat
  idle : Bitset.Words w

/-- What the client calls.  `p` is a priority. -/
inductive Cmd where
  | ready (n p : Nat)
  | block (n p : Nat)
  | rotate (p : Nat)
  | next

/-- Before the first call: `idle.set()` (bitset.hpp:322-327). -/
def initial (w N : Nat) (h : IList.Heap) : State w := ⟨⟨h, fun _ => ⟨none, none⟩⟩, Bitset.setAll (Bitset.empty w N)⟩

/-- `if (lists[p].empty()) { idle.set(p); }` (intrusive_list.hpp:163-165, bitset.hpp:271-284). -/
def settle {w : Nat} (s : State w) (p : Nat) : Outcome (State w) :=
  if (s.world.lists p).head = none then do
    let i ← Bitset.set s.idle p true
    return ⟨s.world, i⟩
  else .ok s

/-- `lists[p].pop_front()` (intrusive_list.hpp:133-146). -/
def take {w : Nat} (c : IList.Cfg) (s : State w) (p : Nat) : Outcome (State w × Nat) := do
  let (l, r, _) ← IList.stepW c s.world p .popFront
  match r with
  | .node (some x) => .ok (⟨l, s.idle⟩, x)
  | _ => .ub

/-- One command.
`ready`: `lists[p].push_back(n); idle.reset(p);`
`block`: `lists[p].remove(n); if (lists[p].empty()) { idle.set(p); }`
`rotate`: `lists[p].push_back(lists[p].pop_front());`
`next`: `auto const p = idle.lowest_unset(); if (p < idle.size()) { auto const n = lists[p].pop_front();
if (lists[p].empty()) { idle.set(p); } return n; } return nullptr;`
(intrusive_list.hpp:118-187, bitset.hpp:271-284, 329-338, 403-413). -/
def step {w : Nat} (c : IList.Cfg) (N : Nat) (s : State w) : Cmd → Outcome (State w × Option Nat)
  | .ready n p => do
    let (l, _) ← IList.stepW c s.world p (.pushBack n)
    let i ← Bitset.reset s.idle p
    return (⟨l, i⟩, none)
  | .block n p => do
    let (l, _) ← IList.stepW c s.world p (.remove n)
    let s ← settle ⟨l, s.idle⟩ p
    return (s, none)
  | .rotate p => do
    let (s, n) ← take c s p
    let (l, _) ← IList.stepW c s.world p (.pushBack n)
    return (⟨l, s.idle⟩, none)
  | .next => do
    let p ← Bitset.lowestUnset s.idle
    if p < N then do
      let (s, n) ← take c s p
      let s ← settle s p
      return (s, some n)
    else return (s, none)

/-- A history (intrusive_list.hpp:118-187, bitset.hpp:271-413). -/
def run {w : Nat} (c : IList.Cfg) (N : Nat) (s : State w) : List Cmd → Outcome (State w × List (Option Nat))
  | [] => .ok (s, [])
  | k :: ks => do
    let (s, r) ← step c N s k
    let (s, rs) ← run c N s ks
    return (s, r :: rs)

end Verif.Ready
