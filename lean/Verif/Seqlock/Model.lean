import Verif.Ring.Model
import Verif.Sync.Turns

/-!
# Model of a sequence lock  (/repo/include/stdx/atomic.hpp)

One thread writes several words, any threads read them without stopping it; `seq` is an atomic of the unsigned type `U`, the words are atomics too:

```
auto write(auto... changes) {                    // thread P; `s` is its own, zero at first
    seq.store(++s, any_order);
    words[i].store(x, std::memory_order_release);    // as often as required
    seq.store(++s, std::memory_order_release);
}
auto read() -> std::optional<std::array<T, K>> {
    auto const s = seq.load(std::memory_order_acquire);
    if (s % 2 != 0) { return {}; }
    for (i...) { x[i] = words[i].load(std::memory_order_acquire); }     // in any order
    if (seq.load(any_order) != s) { return {}; }
    return x;
}
```

The executions are those of `Verif/Sync/Many.lean`.
-/

namespace Verif.Seqlock

open Verif.Sync

variable {κ γ δ : Type} {D : Decls κ γ} [DecidableEq κ] [DecidableEq γ]

/-- An event that changes neither `seq` nor a word. (A client of atomic.hpp:52-67.) -/
def Free (seq : γ) (word : Nat → γ) (K : Nat) (e : Event D δ) : Prop :=
  (∀ r, e = .num seq r → r.call.1 = .load) ∧ ∀ i r, i < K → e = .num (word i) r → r.call.1 = .load

/-- What the writer may do, when it has changed `seq` so many times: other things; change `seq`, with an order that releases at the end of a
write; and store a word during a write, with an order that satisfies `ord`. (A client of atomic.hpp:57-67.) -/
inductive Step (ord : MOrd → Prop) (seq : γ) (word : Nat → γ) (K : Nat) : Nat → Event D δ → Nat → Prop
  | other (s e) (h : Free seq word K e) : Step ord seq word K s e s
  | turn (s r u) (h : r.call.1 = .store u ∨ r.call.1 = .assign u) (hu : u.toNat = (s + 1) % 2 ^ (D.C seq).w)
      (ho : s % 2 = 1 → Releasing (aorder D.dflt r.call.1 r.call.2)) : Step ord seq word K s (.num seq r) (s + 1)
  | word (s i r u) (hi : i < K) (hs : s % 2 = 1) (h : r.call.1 = .store u ∨ r.call.1 = .assign u)
      (ho : ord (aorder D.dflt r.call.1 r.call.2)) : Step ord seq word K s (.num (word i) r) s

/-- What the writer has done so far, and how many times it has changed `seq`. (A client of atomic.hpp:57-67.) -/
inductive Runs (ord : MOrd → Prop) (seq : γ) (word : Nat → γ) (K : Nat) : List (Event D δ) → Nat → Prop
  | start : Runs ord seq word K [] 0
  | step (l e s s') (h : Runs ord seq word K l s) (he : Step ord seq word K s e s') : Runs ord seq word K (l ++ [e]) s'

/-- An execution in which only `P` writes, which has run the program so far; `seq` is not one of the words. (A client of atomic.hpp:52-67; coherence
between threads is the guarantee behind it.) -/
structure Run (ord : MOrd → Prop) (c0 : (k : κ) → BitVec (D.w k)) (v0 : (a : γ) → BitVec (D.C a).w) (threads : List (List (Event D δ)))
    (seq : γ) (word : Nat → γ) (K P : Nat) : Prop where
  decls : D.Ok
  histories : Histories c0 v0 threads
  consistent : Consistent threads
  zero : v0 seq = 0#_
  wide : 0 < (D.C seq).w
  apart : ∀ i, i < K → word i ≠ seq
  differ : ∀ i j, i < K → j < K → word i = word j → i = j
  writer : ∃ s, Runs ord seq word K (threads.getD P []) s
  readers : ∀ t n e, t ≠ P → eventAt threads t n = some e → Free seq word K e

/-- Thread `t` has read the words: at its event `l` it has loaded an even number from `seq`, at `x i` the word `i` (value `v i`), and at `l'` the
same number from `seq` again; the loads of the words and the first one of `seq` acquire. Between the two loads `seq` has not gone
all the way round. (Calls of atomic.hpp:52-55.) -/
structure Reads (threads : List (List (Event D δ))) (seq : γ) (word : Nat → γ) (K t l : Nat) (x : Nat → Nat) (l' : Nat)
    (v : (i : Nat) → BitVec (D.C (word i)).w) : Prop where
  first : ∃ mo u acc mo' acc', l < l' ∧ eventAt threads t l = some (.num seq ⟨(.load, mo), some u, acc⟩) ∧
    (mo = none ∨ ∃ o, mo = some o ∧ Acquiring o) ∧ u.toNat % 2 = 0 ∧
    eventAt threads t l' = some (.num seq ⟨(.load, mo'), some u, acc'⟩) ∧
    ∀ p p', acc = .read p → acc' = .read p' → p' < p + 2 ^ (D.C seq).w
  words : ∀ i, i < K → l < x i ∧ x i < l' ∧ ∃ mo acc, eventAt threads t (x i) = some (.num (word i) ⟨(.load, mo), some (v i), acc⟩) ∧
    (mo = none ∨ ∃ o, mo = some o ∧ Acquiring o)

end Verif.Seqlock
