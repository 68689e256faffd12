import Verif.Conc.Model
import Verif.BitMask.Model
import Verif.Bitset.Model

/-!
# Model of `stdx::atomic_bitset<N, StorageElem>` (/repo/include/stdx/atomic_bitset.hpp)

`elem_t` has `w` bits and `1 ≤ N ≤ w` (`static_assert`s at 36-37 and in `bit_mask`, 40); `StorageElem` may
be narrower, which matters only for `to_natural`.  Every access to `storage` is one step of the external atomic library
(`Verif.Conc`); a returned `bitset_t` is the word list of the bitset model.
-/

namespace Verif.AtomicBitset

open Verif.Conc Verif.Bitset Verif.BitMask

/-- `mask`, atomic_bitset.hpp:40. -/
def mask (w N : Nat) : Outcome (BitVec w) := bitMask w (N - 1) 0

/-- `bitset_t{value}` for an `elem_t`, atomic_bitset.hpp:64 and 106, through the `std::uint64_t`
constructor, bitset.hpp:185-197. -/
def toBitset (w N : Nat) (v : BitVec w) : Outcome (Words w) := ofU64 w N (v.setWidth 64)

/-! ## Constructors (initial storage) -/

/-- `atomic_bitset(std::uint64_t)`, atomic_bitset.hpp:67-68. -/
def ofValue (w N : Nat) (v : BitVec 64) : Outcome (BitVec w) := do
  let m ← mask w N
  return (v &&& m.setWidth 64).setWidth w

/-- `atomic_bitset(place_bits, bs...)`, atomic_bitset.hpp:70-74: not masked. -/
def ofPlaceBits (w : Nat) : List Nat → Outcome (BitVec w)
  | [] => .ok 0#w
  | b :: bs => do
    let t ← cshl 1#w b
    let r ← ofPlaceBits w bs
    return t ||| r

/-- `atomic_bitset(all_bits)`, atomic_bitset.hpp:76. -/
def ofAllBits (w N : Nat) : Outcome (BitVec w) := mask w N

/-- The loop of `value_from_string`, atomic_bitset.hpp:51-59, over the reversed characters. -/
def strLoop {w : Nat} (one : Char) : List Char → BitVec w → BitVec w → Outcome (BitVec w)
  | [], _, ret => .ok ret
  | c :: cs, i, ret => do
    let ret := if c == one then ret ||| i else ret
    let i ← cshl i 1
    strLoop one cs i ret

/-- `atomic_bitset(str, pos, n, one)`, atomic_bitset.hpp:45-61 and 78-81; `substr` throws for
`pos > size()`. -/
def ofString (w N : Nat) (str : List Char) (pos n : Nat) (one : Char) : Outcome (BitVec w) :=
  if pos > str.length then .panic
  else
    let len := min n (str.length - pos)
    let s := (str.drop pos).take (min len N)
    strLoop one s.reverse 1#w 0#w

/-! ## Operations -/

/-- The member functions that touch the storage, atomic_bitset.hpp:104-217. -/
inductive Op (w : Nat) where
  | load
  | store (b : Words w)
  | set (pos : Nat) (value : Bool)
  | setRange (lsb msb : Nat) (value : Bool)
  | setLen (lsb len : Nat) (value : Bool)
  | setAll
  | reset (pos : Nat)
  | resetRange (lsb msb : Nat)
  | resetLen (lsb len : Nat)
  | resetAll
  | flip (pos : Nat)
  | flipRange (lsb msb : Nat)
  | flipLen (lsb len : Nat)
  | flipAll

/-- Return `bitset_t{prev}`, e.g. atomic_bitset.hpp:129-133. -/
def returnBitset {w : Nat} (N : Nat) (p : Prog w (BitVec w)) : Prog w (Option (Words w)) :=
  p.bind fun prev => (Prog.ofOutcome (toBitset w N prev)).bind fun b => .ret (some b)

/-- `set(lsb, msb, value)`, atomic_bitset.hpp:136-145. -/
def setRange {w : Nat} (N l m : Nat) (value : Bool) : Prog w (Option (Words w)) :=
  (Prog.ofOutcome (bitMask w m l)).bind fun v =>
    if value then returnBitset N (fetchOr v) else returnBitset N (fetchAnd (~~~v))

/-- `reset(lsb, msb)`, atomic_bitset.hpp:168-175. -/
def resetRange {w : Nat} (N l m : Nat) : Prog w (Option (Words w)) :=
  (Prog.ofOutcome (bitMask w m l)).bind fun v => returnBitset N (fetchAnd (~~~v))

/-- `flip(lsb, msb)`, atomic_bitset.hpp:200-206. -/
def flipRange {w : Nat} (N l m : Nat) : Prog w (Option (Words w)) :=
  (Prog.ofOutcome (bitMask w m l)).bind fun v => returnBitset N (fetchXor v)

/-- What each member function does, atomic_bitset.hpp:104-217; the ones returning `*this` give `none`. -/
def impl {w : Nat} (N : Nat) : Op w → Prog w (Option (Words w))
  -- load, 109-112, and the conversion to `bitset_t`, 105-107; `salient_value` 41-43
  | .load => (Prog.ofOutcome (mask w N)).bind fun m => Conc.load.bind fun c =>
      (Prog.ofOutcome (toBitset w N (c &&& m))).bind fun b => .ret (some b)
  -- store, 113-116: `to<elem_t>()` of the argument
  | .store b =>
    match Bitset.to N w true b with
    | some v => (Prog.ofOutcome v).bind fun v => (Conc.store v).bind fun _ => .ret none
    | none => .ub
  -- set(idx, value), 124-134
  | .set pos value => (Prog.ofOutcome (cshl 1#w pos)).bind fun v =>
      if value then returnBitset N (fetchOr v) else returnBitset N (fetchAnd (~~~v))
  | .setRange l m value => setRange N l m value
  -- 147-152
  | .setLen l len value => setRange N l (lenToMsb l len) value
  -- set(), 154-158
  | .setAll => (Prog.ofOutcome (mask w N)).bind fun m => (Conc.store m).bind fun _ => .ret none
  -- reset(idx), 160-166
  | .reset pos => (Prog.ofOutcome (cshl 1#w pos)).bind fun v => returnBitset N (fetchAnd (~~~v))
  | .resetRange l m => resetRange N l m
  -- 177-183
  | .resetLen l len => resetRange N l (lenToMsb l len)
  -- reset(), 185-190
  | .resetAll => (Conc.store 0#w).bind fun _ => .ret none
  -- flip(idx), 192-198
  | .flip pos => (Prog.ofOutcome (cshl 1#w pos)).bind fun v => returnBitset N (fetchXor v)
  | .flipRange l m => flipRange N l m
  -- 208-213
  | .flipLen l len => flipRange N l (lenToMsb l len)
  -- flip(), 215-217
  | .flipAll => (Prog.ofOutcome (mask w N)).bind fun m => returnBitset N (fetchXor m)

/-! ## Observers (functions of the one value loaded, `c`) -/

/-- `salient_value`, atomic_bitset.hpp:41-43. -/
def salient {w : Nat} (N : Nat) (c : BitVec w) : Outcome (BitVec w) := do
  let m ← mask w N
  return c &&& m

/-- `to<T>()`, atomic_bitset.hpp:86-96, for `T` of `u` bits; `none`: `static_assert`. -/
def to {w : Nat} (N u : Nat) (c : BitVec w) : Option (Outcome (BitVec u)) :=
  if N ≤ u then some (do let v ← salient N c; return v.setWidth u) else none

/-- `to_natural()`, atomic_bitset.hpp:98-102, for a `StorageElem` of `u` bits. -/
def toNatural {w : Nat} (N u : Nat) (c : BitVec w) : Outcome (BitVec u) := do
  let v ← salient N c
  return v.setWidth u

/-- `operator[]`, atomic_bitset.hpp:120-122. -/
def get {w : Nat} (N : Nat) (c : BitVec w) (i : Nat) : Outcome Bool := do
  let v ← salient N c
  let b ← toBitset w N v
  Bitset.get b i

/-- `all()`, atomic_bitset.hpp:219-222. -/
def all {w : Nat} (N : Nat) (c : BitVec w) : Outcome Bool := do
  let v ← salient N c
  let m ← mask w N
  return v == m

/-- `any()`, atomic_bitset.hpp:223-226. -/
def any {w : Nat} (N : Nat) (c : BitVec w) : Outcome Bool := do
  let v ← salient N c
  return v != 0#w

/-- `none()`, atomic_bitset.hpp:227-230. -/
def none' {w : Nat} (N : Nat) (c : BitVec w) : Outcome Bool := do
  let v ← salient N c
  return v == 0#w

/-- `count()`, atomic_bitset.hpp:232-236. -/
def count {w : Nat} (N : Nat) (c : BitVec w) : Outcome Nat := do
  let v ← salient N c
  return BitOps.popcount v

end Verif.AtomicBitset
