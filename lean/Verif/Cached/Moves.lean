import Verif.Cached.Copies

/-!
# Moves of `latched` and `cached` objects (/repo/include/stdx/latched.hpp, cached.hpp)

The classes declare no move operations (latched.hpp:13-56, cached.hpp:8-17), so moving moves the callable and the `std::optional`.  A
moved-from `std::optional` that held a value still holds one, the moved-from value.  As in `Verif.Cached.Copies` the callables work on
state that they share; moving them does not change what they do.
-/

namespace Verif.Cached

/-- What can be done: the operations without moves, move construction, and move assignment to the first from the second (implicit,
latched.hpp:13-56). -/
inductive MOp where
  | base (op : POp)
  | move (i : Nat)
  | moveAssign (i j : Nat)

variable {σ α : Type}

/-- One operation (latched.hpp:16-55, cached.hpp:11-16). `moved a` is what is left of the value `a` when it is moved from. -/
def mstep (f : Fn σ α) (moved : α → α) (P : Pool σ α) : MOp → Outcome (Pool σ α × Res α)
  | .base op => pstep f P op
  | .move i =>
    match P.objs[i]? with
    | some o => .ok (⟨P.objs.set i (o.map moved) ++ [o], P.fs, P.log⟩, .unit)
    | none => .ub
  | .moveAssign i j =>
    match P.objs[i]?, P.objs[j]? with
    | some _, some o => .ok (⟨(P.objs.set i o).set j (o.map moved), P.fs, P.log⟩, .unit)
    | _, _ => .ub

/-- A history with moves (latched.hpp:16-55, cached.hpp:11-16). -/
def mrun (f : Fn σ α) (moved : α → α) (P : Pool σ α) : List MOp → Outcome (Pool σ α × List (Res α))
  | [] => .ok (P, [])
  | op :: ops => do
    let r ← mstep f moved P op
    let q ← mrun f moved r.1 ops
    return (q.1, r.2 :: q.2)

end Verif.Cached
