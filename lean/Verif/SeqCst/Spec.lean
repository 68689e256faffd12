import Verif.SeqCst.Model
import Mathlib.Logic.Function.Basic

/-!
# Specification: one call after the other (C162)
-/

namespace Verif.SeqCst

open Verif.Sync

variable {κ γ δ : Type} {D : Decls κ γ} [DecidableEq κ] [DecidableEq γ]

/-- One thread of control makes all the calls, each of them on what the ones before have left in the bitsets `b` and atomics `v`, and each returns
what has been recorded. -/
def OneByOne (b : (k : κ) → BitVec (D.w k)) (v : (a : γ) → BitVec (D.C a).e) : List (Event D δ) → Prop
  | [] => True
  | .bits k r :: l => ∃ x, alone (bcall (D.N k) r.call) (b k) = .ok (x, r.res) ∧ OneByOne (Function.update b k x) v l
  | .num a r :: l => ∃ x, alone (aimpl (D.C a) D.dflt r.call) (v a) = .ok (x, r.res) ∧ OneByOne b (Function.update v a x) l
  | .plain _ _ :: l => OneByOne b v l

/-- The events of the threads in the order of a schedule. -/
def scheduled (threads : List (List (Event D δ))) (S : List (Nat × Nat)) : List (Event D δ) := S.filterMap fun p => eventAt threads p.1 p.2

/-- A call of an object, not an access to other data. -/
def IsCall : Event D δ → Prop
  | .plain _ _ => False
  | _ => True

/-- The call names no memory order. -/
def NoOrder : Event D δ → Prop
  | .bits _ r => match r.call with
    | .op _ mo | .num _ mo | .all mo | .any mo | .none mo | .count mo => mo = none
    | .convert | .index _ => True
  | .num _ r => r.call.2 = none
  | .plain _ _ => True

end Verif.SeqCst
