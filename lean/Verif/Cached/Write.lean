import Verif.Cached.Model

/-!
# Writing through the reference that `refresh()` returns (/repo/include/stdx/cached.hpp)
-/

namespace Verif.Cached

/-- A member function (latched.hpp:19-45, cached.hpp:11-16) or `c.refresh() = a` (cached.hpp:12-16, which returns a reference that
is not constant). -/
inductive WOp (α : Type) where
  | call (op : Op)
  | refreshAssign (a : α)

variable {σ α : Type}

/-- One operation, latched.hpp:19-45, cached.hpp:11-16: if the call of `refresh()` throws, nothing is assigned. -/
def wstep (f : Fn σ α) (o : Obj σ α) : WOp α → Obj σ α × Res α
  | .call op => step f o op
  | .refreshAssign a =>
    let r := step f o .refresh
    match r.1.opt with
    | some _ => ({ r.1 with opt := some a }, .unit)
    | none => (r.1, r.2)

/-- A history, latched.hpp:19-45, cached.hpp:11-16. -/
def wrun (f : Fn σ α) (o : Obj σ α) : List (WOp α) → Obj σ α × List (Res α)
  | [] => (o, [])
  | op :: ops =>
    let r := wstep f o op
    let rs := wrun f r.1 ops
    (rs.1, r.2 :: rs.2)

end Verif.Cached
