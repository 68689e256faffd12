import Verif.IList.Model
import Verif.CxMap.Model

/-!
# A cache: a `cx_map` from keys to nodes of an `intrusive_list` that is kept in the order of use

A client's program over /repo/include/stdx/cx_map.hpp and /repo/include/stdx/intrusive_list.hpp.  There are `N` nodes with members `key` and
`value`; a node is either in the list `used`, most recently used first, or in the list `unused`.  All calls are those of the models of the two
headers.
-/

namespace Verif.Lru

variable {κ ν : Type}

/-- The two lists. -/
inductive Which where
  | used
  | unused
  deriving DecidableEq, Repr

/-- The lists, the nodes with their members, and the map (intrusive_list.hpp:50-58, cx_map.hpp:35-36). -/
structure State (κ ν : Type) where
  world : IList.World Which
  key : Nat → κ
  val : Nat → ν
  index : Buf.Buf (κ × Nat)

/-- What the client calls. -/
inductive Cmd (κ ν : Type) where
  | get (k : κ)
  | put (k : κ) (v : ν)
  | erase (k : κ)

/-- `for (auto &n : nodes) { unused.push_back(&n); }` (intrusive_list.hpp:123-126). -/
def fill (c : IList.Cfg) : List Nat → IList.World Which → Outcome (IList.World Which)
  | [], l => .ok l
  | n :: ns, l => do
    let (l, _) ← IList.stepW c l .unused (.pushBack n)
    fill c ns l

/-- Before the first call: the nodes are in `unused`, the map is empty (intrusive_list.hpp:123-126, cx_map.hpp:39). -/
def initial (c : IList.Cfg) (N : Nat) (h : IList.Heap) (key : Nat → κ) (val : Nat → ν) (d : κ × Nat) : Outcome (State κ ν) := do
  let l ← fill c (List.range N) ⟨h, fun _ => ⟨none, none⟩⟩
  return ⟨l, key, val, Buf.init N d⟩

/-- `used.remove(n); used.push_front(n);` (intrusive_list.hpp:118-121, 173-187). -/
def touch (c : IList.Cfg) (l : IList.World Which) (n : Nat) : Outcome (IList.World Which) := do
  let (l, _) ← IList.stepW c l .used (.remove n)
  let (l, _) ← IList.stepW c l .used (.pushFront n)
  return l

/-- The node a popping call returns (intrusive_list.hpp:133-161). -/
def popped : IList.Out → Outcome Nat
  | .node (some n) => .ok n
  | _ => .ub

/-- `if (index.full()) { n = used.pop_back(); index.erase(n->key); } else { n = unused.pop_front(); }`
(cx_map.hpp:70-72, 127-135, intrusive_list.hpp:133-161). -/
def room [BEq κ] (c : IList.Cfg) (N : Nat) (s : State κ ν) : Outcome (IList.World Which × Buf.Buf (κ × Nat) × Nat) :=
  if s.index.size == N then do
    let (l, r, _) ← IList.stepW c s.world .used .popBack
    let n ← popped r
    let (i, _) ← CxMap.erase s.index (s.key n)
    return (l, i, n)
  else do
    let (l, r, _) ← IList.stepW c s.world .unused .popFront
    let n ← popped r
    return (l, s.index, n)

/-- One command.
`get`: `if (not index.contains(k)) { return nothing; } auto n = index.get(k); used.remove(n); used.push_front(n); return n->value;`
`put`: `if (index.contains(k)) { auto n = index.get(k); n->value = v; used.remove(n); used.push_front(n); }
else { auto n = room(); n->key = k; n->value = v; index.put(k, n); used.push_front(n); }`
`erase`: `if (index.contains(k)) { auto n = index.get(k); index.erase(k); used.remove(n); unused.push_front(n); }`
(cx_map.hpp:84-135, intrusive_list.hpp:118-187). -/
def step [BEq κ] (c : IList.Cfg) (N : Nat) (s : State κ ν) : Cmd κ ν → Outcome (State κ ν × Option ν)
  | .get k => do
    let b ← CxMap.contains s.index k
    if b then do
      let n ← CxMap.get s.index k
      let l ← touch c s.world n
      return (⟨l, s.key, s.val, s.index⟩, some (s.val n))
    else return (s, none)
  | .put k v => do
    let b ← CxMap.contains s.index k
    if b then do
      let n ← CxMap.get s.index k
      let l ← touch c s.world n
      return (⟨l, s.key, fun m => if m = n then v else s.val m, s.index⟩, none)
    else do
      let (l, i, n) ← room c N s
      let (i, _) ← CxMap.insertOrAssign i k n
      let (l, _) ← IList.stepW c l .used (.pushFront n)
      return (⟨l, fun m => if m = n then k else s.key m, fun m => if m = n then v else s.val m, i⟩, none)
  | .erase k => do
    let b ← CxMap.contains s.index k
    if b then do
      let n ← CxMap.get s.index k
      let (i, _) ← CxMap.erase s.index k
      let (l, _) ← IList.stepW c s.world .used (.remove n)
      let (l, _) ← IList.stepW c l .unused (.pushFront n)
      return (⟨l, s.key, s.val, i⟩, none)
    else return (s, none)

/-- A history (cx_map.hpp:84-135, intrusive_list.hpp:118-187). -/
def run [BEq κ] (c : IList.Cfg) (N : Nat) (s : State κ ν) : List (Cmd κ ν) → Outcome (State κ ν × List (Option ν))
  | [] => .ok (s, [])
  | k :: ks => do
    let (s, r) ← step c N s k
    let (s, rs) ← run c N s ks
    return (s, r :: rs)

end Verif.Lru
