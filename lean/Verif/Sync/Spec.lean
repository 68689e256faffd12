import Verif.Sync.Model
import Verif.AtomicBitset.Spec

/-!
# Specification of orders and synchronisation
-/

namespace Verif.Sync

open Verif.Conc

/-- The program without kinds and orders. -/
def LProg.erase {w : Nat} {α : Type} : LProg w α → Prog w α
  | .ret a => .ret a
  | .ub => .ub
  | .access _ _ f c => .atomically f (fun x => (c x).erase)

/-- Orders that acquire. -/
def Acquiring (o : MOrd) : Prop := o = .acquire ∨ o = .acqRel ∨ o = .seqCst

/-- Orders that release. -/
def Releasing (o : MOrd) : Prop := o = .release ∨ o = .acqRel ∨ o = .seqCst

/-- What the operations do to the object: `set()`, `reset()` and `store` replace it, the others modify it. -/
def opKind {w : Nat} : AtomicBitset.Op w → Kind
  | .load => .load
  | .store _ | .setAll | .resetAll => .store
  | _ => .rmw

/-- What the calls do to the object. -/
def BCall.kind {w : Nat} : BCall w → Kind
  | .op o _ => opKind o
  | _ => .load

/-- The order of a call: the one given, `seq_cst` if none is. -/
def BCall.order {w : Nat} : BCall w → MOrd
  | .op _ (some o) | .num _ (some o) | .all (some o) | .any (some o) | .none (some o) | .count (some o) => o
  | _ => .seqCst

/-- Preconditions of the calls, apart from the orders. -/
def BCall.Legal {w : Nat} (N : Nat) : BCall w → Prop
  | .op o _ => o.Legal N
  | .index i => i < N
  | .num u _ => N ≤ u
  | _ => True

/-- What a call does to position `i`. -/
def BCall.effect {w : Nat} (i : Nat) : BCall w → Option (Bool → Bool)
  | .op o _ => o.effect i
  | _ => .none

/-- What the result of a call tells of position `i` at the time of the call: `some b` if it tells that the position is `b`. -/
def Tells {w : Nat} (i : Nat) (b : Bool) : BCall w → Res w → Prop
  | .op _ _, .prev (some s) => Bitset.get s i = .ok b
  | .convert, .prev (some s) => Bitset.get s i = .ok b
  | .index j, .flag x => j = i ∧ x = b
  | .num _ _, .num n => n.testBit i = b
  | .all _, .flag x => x = true ∧ b = true
  | .any _, .flag x => x = false ∧ b = false
  | .none _, .flag x => x = true ∧ b = false
  | _, _ => False

end Verif.Sync
