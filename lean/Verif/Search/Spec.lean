import Verif.Search.Model

/-!
# Specification: walks in a graph
-/

namespace Verif.Search

/-- The graph of `N` nodes with an edge from `a` to `b` when `e a b`: there is a walk of `k` edges from `s` to `n`. -/
inductive Walk (N : Nat) (e : Nat → Nat → Bool) (s : Nat) : Nat → Nat → Prop where
  | nil : Walk N e s s 0
  | snoc {n k m} (h : Walk N e s n k) (he : e n m = true) (hm : m < N) : Walk N e s m (k + 1)

/-- A walk of at most `k` edges. -/
def Within (N : Nat) (e : Nat → Nat → Bool) (s k n : Nat) : Prop := ∃ j, j ≤ k ∧ Walk N e s n j

/-- `a` is not further from `s` than `b`. -/
def Nearer (N : Nat) (e : Nat → Nat → Bool) (s a b : Nat) : Prop := ∀ k, Walk N e s b k → Within N e s k a

/-- The array of bitsets is that graph: only positions below `N` matter. -/
def Graph {w : Nat} (N : Nat) (e : Nat → Nat → Bool) (g : List (Bitset.Words w)) : Prop :=
  g.length = N ∧ ∀ a t, g[a]? = some t → t.length = Bitset.storageSize w N ∧ ∀ b, b < N → Bitset.get t b = .ok (e a b)

end Verif.Search
