import Verif.Base

/-!
# Fixed-capacity buffers

`cx_vector`, `cx_set` and `cx_map` all consist of `std::array<T, N> storage{}` and
`std::size_t current_size{}` (cx_vector.hpp:16-17, cx_set.hpp:13-14, cx_map.hpp:35-36) and
share the same idioms for appending, removing the last element and scanning.  This file
models those idioms once.
-/

namespace Verif.Buf

/-- The two data members `storage` and `current_size` (cx_vector.hpp:16-17,
cx_set.hpp:13-14, cx_map.hpp:35-36).  `storage.length` is the capacity `N`. -/
structure Buf (α : Type) where
  storage : List α
  size : Nat
  deriving DecidableEq, Repr

/-- Default constructor: `N` value-initialised elements `d` (cx_vector.hpp:32,
cx_set.hpp:25, cx_map.hpp:39). -/
def init {α : Type} (N : Nat) (d : α) : Buf α := ⟨List.replicate N d, 0⟩

/-- Constructor from initial elements (cx_vector.hpp:33-37, cx_set.hpp:26-29,
cx_map.hpp:40-43); the `requires` clause rejects more than `N` of them at compile time,
modelled as `none`. -/
def ofList {α : Type} (N : Nat) (d : α) (ts : List α) : Option (Buf α) :=
  if ts.length ≤ N then some ⟨ts ++ List.replicate (N - ts.length) d, ts.length⟩ else none

/-- `storage[current_size++] = value` (cx_vector.hpp:132 and 135, cx_set.hpp:70 and 77,
cx_map.hpp:120). -/
def append {α : Type} (b : Buf α) (x : α) : Outcome (Buf α) := do
  let st ← arrSet b.storage b.size x
  return ⟨st, szInc b.size⟩

/-- `return storage[--current_size]` (cx_vector.hpp:139, cx_set.hpp:104, cx_map.hpp:81). -/
def popBack {α : Type} (b : Buf α) : Outcome (Buf α × α) := do
  let n := szDec b.size
  let x ← arrGet b.storage n
  return (⟨b.storage, n⟩, x)

/-- The loop `for (auto &x : *this) { if (p(x)) { … return } }` over `begin() … end()`,
from index `i` with `rem` elements left: the index of the first hit
(cx_set.hpp:58-62 and 82-86, cx_map.hpp:86-90, 104-108, 114-119 and 128-133). -/
def scan {α : Type} (p : α → Bool) (st : List α) (i : Nat) : Nat → Outcome (Option Nat)
  | 0 => .ok none
  | rem + 1 => do
    let x ← arrGet st i
    if p x then return some i else scan p st (i + 1) rem

/-- The whole scan `begin() … end()` (cx_set.hpp:58-62, cx_map.hpp:86-90). -/
def find {α : Type} (p : α → Bool) (b : Buf α) : Outcome (Option Nat) := scan p b.storage 0 b.size

/-- Erase by swapping in the last element: `v = storage[--current_size]; return 1`
(cx_set.hpp:81-89, cx_map.hpp:127-135). -/
def eraseIf {α : Type} (p : α → Bool) (b : Buf α) : Outcome (Buf α × Nat) := do
  match ← find p b with
  | some i =>
    let n := szDec b.size
    let x ← arrGet b.storage n
    let st ← arrSet b.storage i x
    return (⟨st, n⟩, 1)
  | none => return (b, 0)

/-- The loop that copies out the elements `begin() … end()` (cx_vector.hpp:39-57). -/
def readRange {α : Type} (st : List α) (i : Nat) : Nat → Outcome (List α)
  | 0 => .ok []
  | rem + 1 => do
    let x ← arrGet st i
    let xs ← readRange st (i + 1) rem
    return x :: xs

/-- Iteration from `begin()` to `end()` (cx_vector.hpp:39-59, cx_set.hpp:31-49,
cx_map.hpp:45-63). -/
def elems {α : Type} (b : Buf α) : Outcome (List α) := readRange b.storage 0 b.size

end Verif.Buf
