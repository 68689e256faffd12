import Verif.IList.Model

/-!
# Iterators of `stdx::intrusive_list` as objects
(/repo/include/stdx/intrusive_list.hpp:14-43)

An iterator is the node pointer it holds.  A program has list objects and iterator objects; operations on
either come in any order.
-/

namespace Verif.IList

/-- `operator*` and `operator->`, intrusive_list.hpp:23-26: a reference to the node, undefined for a null pointer. -/
def deref (h : Heap) (it : Ptr) : Outcome Ptr := refTo h it

/-- `operator++()`, intrusive_list.hpp:28-31. -/
def inc (h : Heap) (it : Ptr) : Outcome Ptr := do
  let nd ← rd h it
  return nd.next

/-- `operator++(int)`, intrusive_list.hpp:32-36: what it returns, and the iterator afterwards. -/
def postInc (h : Heap) (it : Ptr) : Outcome (Ptr × Ptr) := do
  let tmp := it
  let it ← inc h it
  return (tmp, it)

/-- List objects, indexed by `ι`, and iterators, indexed by `κ` (intrusive_list.hpp:38-39, 57-58). -/
structure Prog (ι κ : Type) where
  world : World ι
  its : κ → Ptr

/-- Operations of a program with iterators: on a list (intrusive_list.hpp:105-190); `k = l.begin()`, `k = l.end()`
(105-114); `k' = k`, `++k`, `k' = k++`, `*k`, `k == k'` (20-42); `l.insert(k, n)` and `l.remove(&*k)`. -/
inductive IOp (ι κ : Type) where
  | list (i : ι) (o : Op)
  | begin (k : κ) (i : ι)
  | endOf (k : κ)
  | copy (k k' : κ)
  | inc (k : κ)
  | postInc (k k' : κ)
  | deref (k : κ)
  | eq (k k' : κ)
  | insertAt (i : ι) (k : κ) (n : Nat)
  | removeAt (i : ι) (k : κ)

/-- Assignment to one iterator (intrusive_list.hpp:39, the implicit assignment operator). -/
def assign {κ : Type} [DecidableEq κ] (its : κ → Ptr) (k : κ) (v : Ptr) : κ → Ptr := fun m => if m = k then v else its m

/-- One operation (intrusive_list.hpp:20-42 and 105-190): the program afterwards, the result, the number of panics. -/
def stepI {ι κ : Type} [DecidableEq ι] [DecidableEq κ] (c : Cfg) (p : Prog ι κ) : IOp ι κ → Outcome (Prog ι κ × Out × Nat)
  | .list i o => do let (w, r, n) ← stepW c p.world i o; return (⟨w, p.its⟩, r, n)
  | .begin k i => .ok (⟨p.world, assign p.its k (p.world.lists i).head⟩, .unit, 0)
  | .endOf k => .ok (⟨p.world, assign p.its k none⟩, .unit, 0)
  | .copy k k' => .ok (⟨p.world, assign p.its k' (p.its k)⟩, .unit, 0)
  | .inc k => do let v ← inc p.world.heap (p.its k); return (⟨p.world, assign p.its k v⟩, .unit, 0)
  | .postInc k k' => do
    let (tmp, v) ← postInc p.world.heap (p.its k)
    return (⟨p.world, assign (assign p.its k v) k' tmp⟩, .unit, 0)
  | .deref k => do let x ← deref p.world.heap (p.its k); return (p, .node x, 0)
  | .eq k k' => .ok (p, .bool (p.its k = p.its k'), 0)
  | .insertAt i k n => do let (w, r, m) ← stepW c p.world i (.insert (p.its k) n); return (⟨w, p.its⟩, r, m)
  | .removeAt i k => do
    let x ← deref p.world.heap (p.its k)
    match x with
    | none => .ub
    | some a => do let (w, r, m) ← stepW c p.world i (.remove a); return (⟨w, p.its⟩, r, m)

/-- A history (intrusive_list.hpp:20-42 and 105-190). -/
def runI {ι κ : Type} [DecidableEq ι] [DecidableEq κ] (c : Cfg) (p : Prog ι κ) :
    List (IOp ι κ) → Outcome (Prog ι κ × List Out × Nat)
  | [] => .ok (p, [], 0)
  | o :: os => do
    let (p1, r, n) ← stepI c p o
    let (p2, rs, ns) ← runI c p1 os
    return (p2, r :: rs, n + ns)

/-- A client's loop that advances before it acts on an element:
`for (auto it = l.begin(); it != l.end();) { auto &n = *it++; body(n); }` where `body` is any series of operations on lists
(intrusive_list.hpp:23-42, 105-114).  Returns the nodes visited; running out of fuel stands for a longer loop. -/
def sweep {ι : Type} [DecidableEq ι] (c : Cfg) (body : Nat → List (ι × Op)) :
    Nat → World ι → Ptr → Outcome (World ι × List Nat × Nat)
  | _, w, none => .ok (w, [], 0)
  | 0, _, some _ => .ub
  | fuel + 1, w, some a => do
    let (tmp, it) ← postInc w.heap (some a)
    let x ← deref w.heap tmp
    match x with
    | none => .ub
    | some x => do
      let (w, _, n) ← runW c w (body x)
      let (w, vs, ns) ← sweep c body fuel w it
      return (w, x :: vs, n + ns)

/-- The same loop advancing after acting: `for (auto it = l.begin(); it != l.end(); ++it) { body(*it); }`
(intrusive_list.hpp:23-42, 105-114). -/
def sweepAfter {ι : Type} [DecidableEq ι] (c : Cfg) (body : Nat → List (ι × Op)) :
    Nat → World ι → Ptr → Outcome (World ι × List Nat × Nat)
  | _, w, none => .ok (w, [], 0)
  | 0, _, some _ => .ub
  | fuel + 1, w, some a => do
    let x ← deref w.heap (some a)
    match x with
    | none => .ub
    | some x => do
      let (w, _, n) ← runW c w (body x)
      let it ← inc w.heap (some a)
      let (w, vs, ns) ← sweepAfter c body fuel w it
      return (w, x :: vs, n + ns)

end Verif.IList
