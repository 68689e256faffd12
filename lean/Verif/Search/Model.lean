import Verif.Bitset.Model
import Verif.CxQueue.Model

/-!
# Breadth-first search with a `bitset` and a `cx_queue`

A client's program over /repo/include/stdx/bitset.hpp and cx_queue.hpp: a graph of `N` nodes is an
`std::array<bitset<N>, N>` of the successors of each node.  All calls are those of the models of the headers.

```
auto seen = stdx::bitset<N>{};
auto todo = stdx::cx_queue<std::size_t, N, P>{};
seen.set(start);
todo.push(start);
while (not todo.empty()) {
    auto const n = todo.pop();
    visit(n);
    auto const fresh = graph[n] - seen;
    for_each([&](auto m) { todo.push(m); }, fresh);
    seen |= fresh;
}
```
-/

namespace Verif.Search

open Verif.Bitset (Words)
open Verif.CxQueue (Cfg Queue)

/-- What the search leaves: the set of the nodes seen, the nodes in the order of the calls of `visit`,
and how often the panic handler ran. -/
structure Result (w : Nat) where
  seen : Words w
  order : List Nat
  panics : Nat

/-- `todo.push(m)`, cx_queue.hpp:84-99, in the function given to `for_each` (bitset.hpp:499-507); the queue and the panics so far. -/
def pushOne (c : Cfg Nat) (o : Outcome (Queue Nat × Nat)) (m : Nat × Bool) : Outcome (Queue Nat × Nat) := do
  let (q, p) ← o
  let (q, p') ← CxQueue.push c q m.1
  return (q, p + p')

/-- The loop; `fuel` bounds it, and running out of it stands for a loop that does not end
(cx_queue.hpp:53-57, 101-109; bitset.hpp:127-130, 499-507, 423-428). -/
def loop {w : Nat} (c : Cfg Nat) (g : List (Words w)) : Nat → Words w → Queue Nat → Nat → Outcome (Result w)
  | 0, _, _, _ => .ub
  | fuel + 1, seen, todo, panics =>
    if todo.size = 0 then .ok ⟨seen, [], panics⟩
    else do
      let ((todo, n), p) ← CxQueue.pop c todo
      let succ ← arrGet g n
      let fresh ← Bitset.sub c.N succ seen
      let o ← Bitset.forEach .setBit c.N (pushOne c) fresh (.ok (todo, panics + p))
      let (todo, panics) ← o
      let seen ← Bitset.or c.N seen fresh
      let r ← loop c g fuel seen todo panics
      return { r with order := n :: r.order }

/-- The search from `start` (bitset.hpp:78, 184, 271-284; cx_queue.hpp:36-39, 84-99); `d` is the value of an unused slot of the queue. -/
def search {w : Nat} (c : Cfg Nat) (g : List (Words w)) (d start fuel : Nat) : Outcome (Result w) := do
  let seen ← Bitset.set (Bitset.empty w c.N) start true
  let (todo, p) ← CxQueue.push c (CxQueue.init c.N d) start
  loop c g fuel seen todo p

end Verif.Search
