import Verif.Sync.PropsAtomic

/-!
# Several atomics, and other data
(/repo/include/stdx/atomic.hpp, /repo/include/stdx/atomic_bitset.hpp)

Threads that call member functions of any number of `atomic_bitset`s and `atomic`s, and between these calls access data that is
not atomic.  For each of the objects the rules of `Verif.Sync.Model` hold; rules that relate several objects to each other would only exclude
executions and are left out.
-/

namespace Verif.Sync

open Verif.Conc

/-- The objects of a program: storage width and size of its bitsets (atomic_bitset.hpp:19-43), the configurations of its other atomics
and the default order of the external library (atomic.hpp:20-50, 88-100). -/
structure Decls (κ γ : Type) where
  w : κ → Nat
  N : κ → Nat
  C : γ → Atomic.Cfg
  dflt : MOrd

variable {κ γ δ : Type}

/-- What a thread does: a call of a member function of an `atomic_bitset` (atomic_bitset.hpp:86-236) or of an `atomic`
(atomic.hpp:52-118), or an access to data that is not atomic. -/
inductive Event (D : Decls κ γ) (δ : Type) where
  | bits (k : κ) (r : Rec (BCall (D.w k)) (Res (D.w k)))
  | num (a : γ) (r : Rec (ACall (D.C a)) (Option (BitVec (D.C a).w)))
  | plain (d : δ) (write : Bool)

variable {D : Decls κ γ}

/-- The calls of one bitset. (atomic_bitset.hpp:86-236) -/
def Event.bits? [DecidableEq κ] (k : κ) : Event D δ → Option (Rec (BCall (D.w k)) (Res (D.w k)))
  | .bits k' r => if h : k' = k then some (h ▸ r) else none
  | _ => none

/-- The calls of one atomic. (atomic.hpp:52-118) -/
def Event.num? [DecidableEq γ] (a : γ) : Event D δ → Option (Rec (ACall (D.C a)) (Option (BitVec (D.C a).w)))
  | .num a' r => if h : a' = a then some (h ▸ r) else none
  | _ => none

/-- The calls of all threads that are of one object. (atomic.hpp:52-118, atomic_bitset.hpp:86-236) -/
def part {ε ρ : Type} (f : ε → Option ρ) (threads : List (List ε)) : List (List ρ) := threads.map (·.filterMap f)

/-- The `n`-th event of thread `t`. (Calls of atomic.hpp:52-118 and atomic_bitset.hpp:86-236, and accesses between them.) -/
def eventAt {ε : Type} (threads : List (List ε)) (t n : Nat) : Option ε := threads[t]?.bind (·[n]?)

/-- How many calls of the object the thread has made before its `n`-th event. (atomic.hpp:52-118, atomic_bitset.hpp:86-236) -/
def before {ε ρ : Type} (f : ε → Option ρ) (threads : List (List ε)) (t n : Nat) : Nat :=
  (((threads.getD t []).take n).filterMap f).length

/-- An execution: for each object by itself the calls are a history of it, from its initial value. (The guarantees behind atomic.hpp:52-118
and atomic_bitset.hpp:86-236.) -/
structure Histories [DecidableEq κ] [DecidableEq γ] (c0 : (k : κ) → BitVec (D.w k)) (v0 : (a : γ) → BitVec (D.C a).w)
    (threads : List (List (Event D δ))) : Prop where
  bits : ∀ k, ∃ m val, History (bcall (D.N k)) (c0 k) m val (part (Event.bits? k) threads)
  num : ∀ a, ∃ m val, History (aimpl (D.C a) D.dflt) (Atomic.init (D.C a) (v0 a)) m val (part (Event.num? a) threads)

/-- Happens-before, [intro.races]: earlier in the same thread, or by synchronisation through one of the objects, or by way of a third
event. (What the orders of atomic.hpp:52-118 and atomic_bitset.hpp:86-236 are for.) -/
inductive HB [DecidableEq κ] [DecidableEq γ] (threads : List (List (Event D δ))) : Nat → Nat → Nat → Nat → Prop
  | same (t n n') (e e') (h : eventAt threads t n = some e) (h' : eventAt threads t n' = some e') (hn : n < n') :
      HB threads t n t n'
  | bits (k t n t' n' r r') (h : eventAt threads t n = some (.bits k r)) (h' : eventAt threads t' n' = some (.bits k r'))
      (hs : SyncsWith (bcall (D.N k)) (part (Event.bits? k) threads) t (before (Event.bits? k) threads t n) t'
        (before (Event.bits? k) threads t' n')) : HB threads t n t' n'
  | num (a t n t' n' r r') (h : eventAt threads t n = some (.num a r)) (h' : eventAt threads t' n' = some (.num a r'))
      (hs : SyncsWith (aimpl (D.C a) D.dflt) (part (Event.num? a) threads) t (before (Event.num? a) threads t n) t'
        (before (Event.num? a) threads t' n')) : HB threads t n t' n'
  | trans (t n t' n' t'' n'') (h : HB threads t n t' n') (h' : HB threads t' n' t'' n'') : HB threads t n t'' n''

end Verif.Sync
