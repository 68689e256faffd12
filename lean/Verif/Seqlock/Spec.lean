import Verif.Sync.Many

/-!
# Specification of a sequence lock (C159)

Written from the description: what a sequence of stores leaves in a variable, and how often a variable is stored to.
-/

namespace Verif.Seqlock

open Verif.Sync

variable {κ γ δ : Type} {D : Decls κ γ} [DecidableEq κ] [DecidableEq γ]

/-- The value that a call stores, if it is a store. -/
def storedBy {C : Atomic.Cfg} : ACall C → Option (BitVec C.w)
  | (.store u, _) => some u
  | (.assign u, _) => some u
  | _ => none

/-- What the events of one thread leave in the atomic `a`, which holds `v` at first, if no other thread changes it. -/
def left (a : γ) (v : BitVec (D.C a).w) (l : List (Event D δ)) : BitVec (D.C a).w :=
  l.foldl (fun v e => ((e.num? a).bind fun r => storedBy r.call).getD v) v

/-- The stores to `a` among the events. -/
def stores (a : γ) (l : List (Event D δ)) : Nat := (l.filter fun e => ((e.num? a).bind fun r => storedBy r.call).isSome).length

end Verif.Seqlock
