import Verif.Sync.PropsMany
import Verif.Sync.Spec

/-!
# Model of initialisation by the first thread that needs it  (/repo/include/stdx/atomic.hpp)

```
if (claimed.exchange(1, any_order) == 0) {
    // this thread initialises the data
    ready.store(1, std::memory_order_release);
}
while (ready.load(std::memory_order_acquire) == 0) {}
// the data can be read
```

Any numbers other than 0 will do in place of 1. The executions are those of `Verif/Sync/Many.lean`; the data is not atomic.
-/

namespace Verif.InitOnce

open Verif.Sync

variable {κ γ δ : Type} {D : Decls κ γ} [DecidableEq κ] [DecidableEq γ]

/-- Where a thread is: it knows nothing, it initialises, or it knows that the data is ready. (A client of atomic.hpp:52-72.) -/
inductive Stage where
  | idle
  | first
  | ready

/-- What a thread may do at any time: other things than to change one of the two atomics or use the data. (A client of atomic.hpp:52-72.) -/
def Free (claimed ready : γ) (P : δ → Prop) (e : Event D δ) : Prop :=
  (∀ r, e = .num claimed r → r.call.1 = .load) ∧ (∀ r, e = .num ready r → r.call.1 = .load) ∧ ∀ d m, P d → e ≠ .plain d m

/-- What a thread may do, and where it is then; `ord` is what is asked of the order of the store. (A client of atomic.hpp: `load`, `store` and `=`
at 52-67, `exchange` at 69-72.) -/
inductive Step (ord : MOrd → Prop) (claimed ready : γ) (P : δ → Prop) : Stage → Event D δ → Stage → Prop
  | other (s e) (h : Free claimed ready P e) : Step ord claimed ready P s e s
  | win (r u) (h : r.call.1 = .exchange u) (hu : u ≠ 0#_) (hv : r.res = some 0#_) : Step ord claimed ready P .idle (.num claimed r) .first
  | lose (r u v) (h : r.call.1 = .exchange u) (hu : u ≠ 0#_) (hv : r.res = some v) (hn : v ≠ 0#_) :
      Step ord claimed ready P .idle (.num claimed r) .idle
  | init (d m) (h : P d) : Step ord claimed ready P .first (.plain d m) .first
  | publish (r u) (h : r.call.1 = .store u ∨ r.call.1 = .assign u) (hu : u ≠ 0#_) (ho : ord (aorder D.dflt r.call.1 r.call.2)) :
      Step ord claimed ready P .first (.num ready r) .ready
  | see (mo v acc) (hn : v ≠ 0#_) (ho : mo = none ∨ ∃ o, mo = some o ∧ Acquiring o) :
      Step ord claimed ready P .idle (.num ready ⟨(.load, mo), some v, acc⟩) .ready
  | use (d) (h : P d) : Step ord claimed ready P .ready (.plain d false) .ready

/-- What a thread has done so far, and where it is. (A client of atomic.hpp:52-72.) -/
inductive Runs (ord : MOrd → Prop) (claimed ready : γ) (P : δ → Prop) : List (Event D δ) → Stage → Prop
  | start : Runs ord claimed ready P [] .idle
  | step (l e s s') (h : Runs ord claimed ready P l s) (he : Step ord claimed ready P s e s') : Runs ord claimed ready P (l ++ [e]) s'

/-- An execution in which all threads run the program; both atomics are 0 at first. (A client of atomic.hpp:52-72.) -/
structure Run (ord : MOrd → Prop) (c0 : (k : κ) → BitVec (D.w k)) (v0 : (a : γ) → BitVec (D.C a).w) (threads : List (List (Event D δ)))
    (claimed ready : γ) (P : δ → Prop) : Prop where
  decls : D.Ok
  histories : Histories c0 v0 threads
  claimedZero : v0 claimed = 0#_
  readyZero : v0 ready = 0#_
  differ : claimed ≠ ready
  programs : ∀ t, ∃ s, Runs ord claimed ready P (threads.getD t []) s

/-- The call returns to a thread that it is the first. (`exchange`, atomic.hpp:69-72.) -/
def Wins {C : Atomic.Cfg} (r : Rec (ACall C) (Option (BitVec C.w))) : Prop := (∃ u, r.call.1 = .exchange u) ∧ r.res = some 0#_

end Verif.InitOnce
