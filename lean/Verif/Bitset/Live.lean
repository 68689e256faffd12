import Verif.Bitset.Model

/-!
# Traversals of a bitset whose callback changes the bitset

`for_each` and `transform_reduce` take the bitset by reference to const and read one word after the other (bitset.hpp:149-177), so a
callback that has the bitset by other means can change it meanwhile.  The state `σ` is all a program's memory, and `view` the words of
the bitset in it.
-/

namespace Verif.Bitset

/-- The loop of the member `for_each`, bitset.hpp:150-156: each word is copied into the parameter `e` (bitset.hpp:26, 37, 48) when the
loop comes to it. -/
def forEachLiveLoop {w : Nat} {σ : Type} (sp : Spec) (f : σ → Nat × Bool → σ) (view : σ → Words w) :
    Nat → Nat → Nat → σ → Outcome (Nat × σ)
  | 0, _, idx, st => .ok (idx, st)
  | k + 1, i, idx, st => do
    let e ← arrGet (view st) i
    let st ← sp.fn (BitVec.allOnes w) e idx f st
    forEachLiveLoop sp f view k (i + 1) (idx + w) st

/-- `for_each<Spec>(f, bs)`, bitset.hpp:148-159, 499-507; `highbits()` is called after the loop. -/
def forEachLive {w : Nat} {σ : Type} (sp : Spec) (N : Nat) (f : σ → Nat × Bool → σ) (view : σ → Words w)
    (st : σ) : Outcome σ := do
  let (idx, st) ← forEachLiveLoop sp f view (szDec (storageSize w N)) 0 0 st
  let h ← highbits N (view st)
  sp.fn (lastmask w N) h idx f st

/-- The loop of `transform_reduce`, bitset.hpp:166-175, with `k` words left: `auto e : storage` copies a word when the loop comes to it.
The value so far is `acc`, and `f` and `r` may change the memory. -/
def transformReduceLiveLoop {w : Nat} {σ τ ρ : Type} (f : σ → Nat → σ × τ) (r : σ → ρ → τ → σ × ρ) (view : σ → Words w) :
    Nat → Nat → Nat → σ × ρ → Outcome (σ × ρ)
  | 0, _, _, s => .ok s
  | k + 1, j, i, s => do
    let e ← arrGet (view s.1) j
    let s ← setBitLoop (fun s p => let (m, t) := f s.1 p; r m s.2 t) i w e s
    transformReduceLiveLoop f r view k (j + 1) (i + w) s

/-- `transform_reduce(f, r, init, bs)`, bitset.hpp:164-177, 509-520. -/
def transformReduceLive {w : Nat} {σ τ ρ : Type} (N : Nat) (f : σ → Nat → σ × τ) (r : σ → ρ → τ → σ × ρ) (view : σ → Words w)
    (st : σ) (init : ρ) : Outcome (σ × ρ) := transformReduceLiveLoop f r view (storageSize w N) 0 0 (st, init)

end Verif.Bitset
