import Verif.Sync.PropsMany
import Verif.Sync.Spec

/-!
# Programs that name no memory orders
(/repo/include/stdx/atomic.hpp, /repo/include/stdx/atomic_bitset.hpp)

If a call is given no order it is sequentially consistent (C130). The language has one rule for these calls that relates several objects to each
other, which is added here to the executions of `Verif/Sync/Many.lean`.
-/

namespace Verif.SeqCst

open Verif.Sync Verif.Conc

variable {κ γ δ : Type} {D : Decls κ γ} [DecidableEq κ] [DecidableEq γ]

/-- The call is sequentially consistent. (The default of atomic.hpp:52-118 and atomic_bitset.hpp:104-236; the orders of calls are those of C130.) -/
def IsSeqCst : Event D δ → Prop
  | .bits _ r => r.call.order = .seqCst
  | .num _ r => aorder D.dflt r.call.1 r.call.2 = .seqCst
  | .plain _ _ => False

/-- One access is coherence-ordered before another one of the same object, [atomics.order]: it is an earlier change, or one that the other
has read or later ones than which it has read, or it has read something that the other, or what the other has read, comes after. (Accesses by the calls
of atomic.hpp:52-118 and atomic_bitset.hpp:104-236.) -/
def Cob : Acc → Acc → Prop
  | .write j, .write j' => j < j'
  | .write j, .read p => j < p
  | .read p, .write j => p ≤ j
  | .read p, .read p' => p < p'

/-- Earlier in the list. (Calls of atomic.hpp:52-118 and atomic_bitset.hpp:104-236.) -/
def Earlier (S : List (Nat × Nat)) (x y : Nat × Nat) : Prop := ∃ (i : Nat) (j : Nat), i < j ∧ S[i]? = some x ∧ S[j]? = some y

/-- The single total order of all sequentially consistent calls, [atomics.order]: it agrees with the order in each thread and with the coherence
order of each object. (A guarantee behind atomic.hpp:52-118 and atomic_bitset.hpp:104-236.) -/
structure SingleOrder (threads : List (List (Event D δ))) (S : List (Nat × Nat)) : Prop where
  nodup : S.Nodup
  mem : ∀ t n, (t, n) ∈ S ↔ ∃ e, eventAt threads t n = some e ∧ IsSeqCst e
  program : ∀ t n n', (t, n) ∈ S → (t, n') ∈ S → n < n' → Earlier S (t, n) (t, n')
  bits : ∀ k t n t' n' r r', (t, n) ∈ S → (t', n') ∈ S → eventAt threads t n = some (.bits k r) → eventAt threads t' n' = some (.bits k r') →
    Cob r.acc r'.acc → Earlier S (t, n) (t', n')
  num : ∀ a t n t' n' r r', (t, n) ∈ S → (t', n') ∈ S → eventAt threads t n = some (.num a r) → eventAt threads t' n' = some (.num a r') →
    Cob r.acc r'.acc → Earlier S (t, n) (t', n')

/-- A call by itself, on an object with value `v`: what it leaves, and its result. (atomic.hpp:52-118, atomic_bitset.hpp:104-236) -/
def alone {w : Nat} {α : Type} : LProg w α → BitVec w → Outcome (BitVec w × α)
  | .ret a, v => .ok (v, a)
  | .ub, _ => .ub
  | .access k _ f c, v => alone (c v) (if k = .load then v else f v)

end Verif.SeqCst
