import Verif.Cached.Model

/-!
# Copies of `latched` and `cached` objects (/repo/include/stdx/latched.hpp, cached.hpp)

The classes declare no copy operations (latched.hpp:13-56, cached.hpp:8-17), so copying copies the callable and the optional.  The callables
of the copies share the state they work on (what they capture by reference): they are called as const objects (latched.hpp:48-50).
-/

namespace Verif.Cached

/-- Several objects, latched.hpp:54-55, with the state their callables share and the results of the calls made. -/
structure Pool (σ α : Type) where
  objs : List (Option α)
  fs : σ
  log : List (Option α)

/-- What can be done: construction from the callable (latched.hpp:16-17), copy construction, copy assignment to the first from the second
(implicit, latched.hpp:13-56), and a member function. -/
inductive POp where
  | make
  | copy (i : Nat)
  | assign (i j : Nat)
  | call (i : Nat) (op : Op)

variable {σ α : Type}

/-- One operation (latched.hpp:16-45, cached.hpp:11-16): `step` on the object concerned. An object that does not exist: `.ub`. -/
def pstep (f : Fn σ α) (P : Pool σ α) : POp → Outcome (Pool σ α × Res α)
  | .make => .ok (⟨P.objs ++ [none], P.fs, P.log⟩, .unit)
  | .copy i =>
    match P.objs[i]? with
    | some o => .ok (⟨P.objs ++ [o], P.fs, P.log⟩, .unit)
    | none => .ub
  | .assign i j =>
    match P.objs[i]?, P.objs[j]? with
    | some _, some o => .ok (⟨P.objs.set i o, P.fs, P.log⟩, .unit)
    | _, _ => .ub
  | .call i op =>
    match P.objs[i]? with
    | some o =>
      let r := step f ⟨o, P.fs, P.log⟩ op
      .ok (⟨P.objs.set i r.1.opt, r.1.fs, r.1.log⟩, r.2)
    | none => .ub

/-- A history (latched.hpp:16-45, cached.hpp:11-16), from no objects; what each operation gave. -/
def prun (f : Fn σ α) (P : Pool σ α) : List POp → Outcome (Pool σ α × List (Res α))
  | [] => .ok (P, [])
  | op :: ops => do
    let r ← pstep f P op
    let q ← prun f r.1 ops
    return (q.1, r.2 :: q.2)

end Verif.Cached
