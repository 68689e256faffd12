import Verif.Ring.Model

/-!
# The program of the ring  (/repo/include/stdx/atomic.hpp)

The events that calls of `send` and `receive` (`Verif/Ring/Model.lean`) make, one after the other, in the order of the program.
-/

namespace Verif.Ring

open Verif.Sync

variable {κ γ δ : Type} {D : Decls κ γ} [DecidableEq κ] [DecidableEq γ]

/-- What threads may do besides: load the counters (atomic.hpp:52-55), and anything with other objects. -/
def Harmless (N : Nat) (tail head : γ) (slot : Nat → δ) (e : Event D δ) : Prop :=
  (∀ r, e = .num tail r → r.call.1 = .load) ∧ (∀ r, e = .num head r → r.call.1 = .load) ∧ ∀ i m, i < N → e ≠ .plain (slot i) m

/-- Any number of calls of `send` (with `mine = tail`, `other = head` and `ok = NotFull w N`) or of `receive` (with `mine = head`, `other = tail`
and `ok = NotEmpty`), and other things between them. Simplified: nothing else is done within a call. The calls of atomic.hpp:52-67. -/
inductive Calls (w N : Nat) (slot : Nat → δ) (mine other : γ) (ok : Nat → Nat → Prop) : List (Event D δ) → Prop
  /-- Nothing more. -/
  | done : Calls w N slot mine other ok []
  /-- Something else. -/
  | besides (e : Event D δ) (l) (h : Harmless N mine other slot e) (hl : Calls w N slot mine other ok l) : Calls w N slot mine other ok (e :: l)
  /-- A call that finds the ring full (or empty). -/
  | refused (mo mo' v u acc acc' l) (ha : mo' = none ∨ ∃ o, mo' = some o ∧ Acquiring o) (hok : ¬ ok v.toNat u.toNat)
      (hl : Calls w N slot mine other ok l) : Calls w N slot mine other ok
        (.num mine ⟨(.load, mo), some v, acc⟩ :: .num other ⟨(.load, mo'), some u, acc'⟩ :: l)
  /-- A call that sends (or receives). -/
  | passed (mo mo' v u acc acc' r x l) (ha : mo' = none ∨ ∃ o, mo' = some o ∧ Acquiring o) (hok : ok v.toNat u.toNat)
      (hx : x.toNat = (v.toNat + 1) % 2 ^ w) (hr : r.call.1 = .store x ∨ r.call.1 = .assign x)
      (hrel : Releasing (aorder D.dflt r.call.1 r.call.2)) (hl : Calls w N slot mine other ok l) : Calls w N slot mine other ok
        (.num mine ⟨(.load, mo), some v, acc⟩ :: .num other ⟨(.load, mo'), some u, acc'⟩ :: .plain (slot (v.toNat % N)) true :: .num mine r :: l)
  /-- A call that has used the place, but has not stored the counter yet. -/
  | unfinished (mo mo' v u acc acc') (ha : mo' = none ∨ ∃ o, mo' = some o ∧ Acquiring o) (hok : ok v.toNat u.toNat) :
      Calls w N slot mine other ok
        [.num mine ⟨(.load, mo), some v, acc⟩, .num other ⟨(.load, mo'), some u, acc'⟩, .plain (slot (v.toNat % N)) true]

/-- `P` sends, `C` receives, and the other threads do neither. (The calls of atomic.hpp:52-67.) -/
structure Program (threads : List (List (Event D δ))) (w N : Nat) (tail head : γ) (P C : Nat) (slot : Nat → δ) : Prop where
  sender : Calls w N slot tail head (NotFull w N) (threads.getD P [])
  receiver : Calls w N slot head tail NotEmpty (threads.getD C [])
  others : ∀ t n e, t ≠ P → t ≠ C → eventAt threads t n = some e → Harmless N tail head slot e

end Verif.Ring
