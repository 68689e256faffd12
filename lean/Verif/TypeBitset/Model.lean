import Verif.Bitset.Model

/-!
# Model of `stdx::type_bitset<Ts...>` (/repo/include/stdx/bitset.hpp:525-696)

Types are the elements of any type `T` with decidable equality.  A function whose `static_assert`
rejects the program returns `none`.  The member `bitset<N>` has words of width `w`.
-/

namespace Verif.TypeBitset

open Verif.Bitset

variable {T : Type} [DecidableEq T]

/-- `mp_unique` (Boost.Mp11): the first occurrence of each type (bitset.hpp:536). -/
def mpUnique (ts : List T) : List T :=
  ts.foldl (fun acc t => if t ∈ acc then acc else acc ++ [t]) []

/-- `index_of<U, type_list<Ts...>>` = `mp_find`, bitset.hpp:525-529: the position of the first
occurrence, or the length of the list. -/
def indexOf (u : T) (ts : List T) : Nat := ts.idxOf u

/-- `N`, bitset.hpp:536-537. -/
def capacity (ts : List T) : Nat := (mpUnique ts).length

/-- `type_bitset(L<Us...>)`, bitset.hpp:586-591. -/
def ofList (w : Nat) (ts us : List T) : Option (Outcome (Words w)) :=
  if us.all (fun u => indexOf u (mpUnique ts) < capacity ts) then
    some (placeBits (us.map fun u => indexOf u (mpUnique ts)) (empty w (capacity ts)))
  else none

/-- `operator[](type_identity<U>)`, bitset.hpp:600-606. -/
def get {w : Nat} (ts : List T) (s : Words w) (u : T) : Option (Outcome Bool) :=
  if indexOf u (mpUnique ts) < ts.length then some (Bitset.get s (indexOf u (mpUnique ts))) else none

/-- The fold `(bs.op(index_of<Us, type_list<Ts...>>), ...)` (bitset.hpp:615, 627, 644). -/
def foldOp {w : Nat} (op : Words w → Nat → Outcome (Words w)) (ts : List T) :
    List T → Words w → Outcome (Words w)
  | [], s => .ok s
  | u :: us, s => do
    let s ← op s (indexOf u ts)
    foldOp op ts us s

/-- The `static_assert` of `set`, `reset` and `flip`: it looks in the list as written
(bitset.hpp:610, 622, 639). -/
def found (ts us : List T) : Bool := us.all fun u => indexOf u ts < capacity ts

/-- `set<Us...>(value)`, bitset.hpp:608-618; without types it sets all, whatever `value` is. -/
def set {w : Nat} (ts us : List T) (value : Bool) (s : Words w) : Option (Outcome (Words w)) :=
  if found ts us then
    some (if us = [] then .ok (setAll s) else foldOp (fun s i => Bitset.set s i value) ts us s)
  else none

/-- `reset<Us...>()`, bitset.hpp:620-630 (`clear` 632-635 forwards to it). -/
def reset {w : Nat} (ts us : List T) (s : Words w) : Option (Outcome (Words w)) :=
  if found ts us then
    some (if us = [] then .ok (resetAll s) else foldOp Bitset.reset ts us s)
  else none

/-- `flip<Us...>()`, bitset.hpp:637-647. -/
def flip {w : Nat} (ts us : List T) (s : Words w) : Option (Outcome (Words w)) :=
  if found ts us then
    some (if us = [] then .ok (flipAll s) else foldOp Bitset.flip ts us s)
  else none

/-- `for_each<Spec>(f)`, bitset.hpp:690-695: position `i` calls the entry of the table `callers` for
the type at `i` in the list without repetitions (`make_callers` 571-577); the callback receives the
type and its index.  The lambda at 693 takes one argument, so with `bit`, which passes two
(bitset.hpp:52), it does not compile. -/
def forEach {w : Nat} {σ : Type} (sp : Spec) (ts : List T) (f : σ → T × Nat → σ) (s : Words w) (st : σ) :
    Option (Outcome (Outcome σ)) :=
  if sp = .bit then none
  else some (Bitset.forEach sp (capacity ts) (fun (st : Outcome σ) c => do
    let st ← st
    let t ← arrGet (mpUnique ts) c.1
    return f st (t, c.1)) s (.ok st))

end Verif.TypeBitset
