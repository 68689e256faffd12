import Verif.FList.Model

/-!
# Iterators of `stdx::intrusive_forward_list` as objects
(/repo/include/stdx/intrusive_forward_list.hpp:14-43)

An iterator is the node pointer it holds.
-/

namespace Verif.FList

open IList (Ptr Heap rd)

/-- `operator*` and `operator->`, intrusive_forward_list.hpp:23-26. -/
def deref (h : Heap) (it : Ptr) : Outcome Ptr := do
  let _ ← rd h it
  return it

/-- `operator++()`, intrusive_forward_list.hpp:28-31. -/
def inc (h : Heap) (it : Ptr) : Outcome Ptr := do
  let nd ← rd h it
  return nd.next

/-- `operator++(int)`, intrusive_forward_list.hpp:32-36: what it returns, and the iterator afterwards. -/
def postInc (h : Heap) (it : Ptr) : Outcome (Ptr × Ptr) := do
  let tmp := it
  let it ← inc h it
  return (tmp, it)

/-- List objects, indexed by `ι`, and iterators, indexed by `κ` (intrusive_forward_list.hpp:38-39, 57-58). -/
structure Prog (ι κ : Type) where
  world : World ι
  its : κ → Ptr

/-- Operations of a program with iterators: on a list (intrusive_forward_list.hpp:82-124); `k = l.begin()`, `k = l.end()`;
`k' = k`, `++k`, `k' = k++`, `*k`, `k == k'` (20-42). -/
inductive IOp (ι κ : Type) where
  | list (i : ι) (o : Op)
  | begin (k : κ) (i : ι)
  | endOf (k : κ)
  | copy (k k' : κ)
  | inc (k : κ)
  | postInc (k k' : κ)
  | deref (k : κ)
  | eq (k k' : κ)

/-- Assignment to one iterator (intrusive_forward_list.hpp:39, the implicit assignment operator). -/
def assign {κ : Type} [DecidableEq κ] (its : κ → Ptr) (k : κ) (v : Ptr) : κ → Ptr := fun m => if m = k then v else its m

/-- One operation (intrusive_forward_list.hpp:20-42 and 82-124): the program afterwards, the result, the number of panics. -/
def stepI {ι κ : Type} [DecidableEq ι] [DecidableEq κ] (c : Cfg) (p : Prog ι κ) : IOp ι κ → Outcome (Prog ι κ × Out × Nat)
  | .list i o => do let (w, r, n) ← stepW c p.world i o; return (⟨w, p.its⟩, r, n)
  | .begin k i => .ok (⟨p.world, assign p.its k (p.world.lists i).head⟩, .unit, 0)
  | .endOf k => .ok (⟨p.world, assign p.its k none⟩, .unit, 0)
  | .copy k k' => .ok (⟨p.world, assign p.its k' (p.its k)⟩, .unit, 0)
  | .inc k => do let v ← inc p.world.heap (p.its k); return (⟨p.world, assign p.its k v⟩, .unit, 0)
  | .postInc k k' => do
    let (tmp, v) ← postInc p.world.heap (p.its k)
    return (⟨p.world, assign (assign p.its k v) k' tmp⟩, .unit, 0)
  | .deref k => do let x ← deref p.world.heap (p.its k); return (p, .node x, 0)
  | .eq k k' => .ok (p, .bool (p.its k = p.its k'), 0)

/-- A history (intrusive_forward_list.hpp:20-42 and 82-124). -/
def runI {ι κ : Type} [DecidableEq ι] [DecidableEq κ] (c : Cfg) (p : Prog ι κ) :
    List (IOp ι κ) → Outcome (Prog ι κ × List Out × Nat)
  | [] => .ok (p, [], 0)
  | o :: os => do
    let (p1, r, n) ← stepI c p o
    let (p2, rs, ns) ← runI c p1 os
    return (p2, r :: rs, n + ns)

end Verif.FList
