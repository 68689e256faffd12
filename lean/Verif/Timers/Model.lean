import Verif.IList.Iterate
import Verif.Rollover.Model

/-!
# Timers: an `intrusive_list` kept in the order of `rollover_t` times

A client's program over /repo/include/stdx/intrusive_list.hpp and /repo/include/stdx/rollover.hpp.  The nodes have a member
`rollover_t<T> due` besides their links; `T` has `w` bits.  All calls are those of the models of the two headers; the list has the
checked policy.
-/

namespace Verif.Timers

open Verif.IList (Ptr)

/-- The list, its nodes and their member `due` (intrusive_list.hpp:50-58, rollover.hpp:9-20). -/
structure State (w : Nat) where
  world : IList.World Unit
  due : Nat → BitVec w

/-- The checked policy with a handler that does not return (list_common.hpp:57-80). -/
def cfg : IList.Cfg := ⟨.checked, .noreturn⟩

/-- What the client calls; times are of any type `τ`. -/
inductive Cmd (τ : Type) where
  | schedule (n : Nat) (t : τ)
  | cancel (n : Nat)
  | expire (now : τ)

/-- Commands with the times converted (rollover.hpp:16-17). -/
def Cmd.map {τ σ : Type} (f : τ → σ) : Cmd τ → Cmd σ
  | .schedule n t => .schedule n (f t)
  | .cancel n => .cancel n
  | .expire t => .expire (f t)

/-- `auto it = l.begin(); while (it != l.end() and not cmp_less(t, it->due)) { ++it; }` (intrusive_list.hpp:23-42, 105-114,
rollover.hpp:98-102).  Running out of fuel stands for a longer loop. -/
def seek {w : Nat} (h : IList.Heap) (due : Nat → BitVec w) (t : BitVec w) : Nat → Ptr → Outcome Ptr
  | _, none => .ok none
  | 0, some _ => .ub
  | k + 1, some a => do
    let _ ← IList.deref h (some a)
    let b ← Rollover.cmpLess t (due a)
    if b then return some a
    let p ← IList.inc h (some a)
    seek h due t k p

/-- `while (not l.empty() and not cmp_less(now, l.front().due)) { out(l.pop_front()); }` (intrusive_list.hpp:116, 133-147, 185-187,
rollover.hpp:98-102).  Running out of fuel stands for a longer loop. -/
def drain {w : Nat} (due : Nat → BitVec w) (now : BitVec w) : Nat → IList.World Unit → Outcome (IList.World Unit × List Nat)
  | k, l =>
    match (l.lists ()).head with
    | none => .ok (l, [])
    | some a =>
      match k with
      | 0 => .ub
      | k + 1 => do
        let _ ← IList.refTo l.heap (some a)
        let b ← Rollover.cmpLess now (due a)
        if b then return (l, [])
        let (l, r, _) ← IList.stepW cfg l () .popFront
        match r with
        | .node (some x) => do
          let (l, xs) ← drain due now k l
          return (l, x :: xs)
        | _ => .ub

/-- One command: `n->due = t`, the search and `l.insert(it, n)`; `l.remove(n)`; the loop that takes out what is due
(intrusive_list.hpp:116-187, rollover.hpp:98-102).  The nodes taken out are returned. -/
def step {w : Nat} (s : State w) : Cmd (BitVec w) → Outcome (State w × List Nat)
  | .schedule n t => do
    let due := fun m => if m = n then t else s.due m
    let it ← seek s.world.heap due t s.world.heap.length (s.world.lists ()).head
    let (l, _) ← IList.stepW cfg s.world () (.insert it n)
    return (⟨l, due⟩, [])
  | .cancel n => do
    let (l, _) ← IList.stepW cfg s.world () (.remove n)
    return (⟨l, s.due⟩, [])
  | .expire now => do
    let (l, xs) ← drain s.due now s.world.heap.length s.world
    return (⟨l, s.due⟩, xs)

/-- A history (intrusive_list.hpp:105-190, rollover.hpp:98-102). -/
def run {w : Nat} (s : State w) : List (Cmd (BitVec w)) → Outcome (State w × List (List Nat))
  | [] => .ok (s, [])
  | c :: cs => do
    let (s, r) ← step s c
    let (s, rs) ← run s cs
    return (s, r :: rs)

end Verif.Timers
