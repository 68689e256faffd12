import Verif.AtomicBitset.Model

/-!
# An `atomic_bitset` used by one thread, beside a `bitset`

The same calls are made on a `bitset<N>` with words of `w` bits and on an `atomic_bitset<N>` with a cell of `a` bits
(/repo/include/stdx/bitset.hpp, /repo/include/stdx/atomic_bitset.hpp).  The operations of the atomic one return what it
held before; on the side of the bitset the caller takes a copy before the call.
-/

namespace Verif.AtomicBitset

open Verif.Conc Verif.Bitset

/-- A program that no other thread disturbs. -/
def alone {w : Nat} {α : Type} : Prog w α → BitVec w → Outcome (α × BitVec w)
  | .ret x, c => .ok (x, c)
  | .ub, _ => .ub
  | .atomically f k, c => alone (k c) (f c)

/-- Reading the positions `0 .. n - 1` of a bitset with `operator[]`, bitset.hpp:261-269. -/
def readOut {w : Nat} (b : Words w) : Nat → Outcome (List Bool)
  | 0 => .ok []
  | n + 1 => do
    let bs ← readOut b n
    let x ← Bitset.get b n
    return bs ++ [x]

/-- The constructors that both have, bitset.hpp:184-225, atomic_bitset.hpp:66-81. -/
inductive Make where
  | zero
  | value (v : BitVec 64)
  | place (ps : List Nat)
  | all
  | str (s : List Char) (pos n : Nat) (one : Char)

/-- The calls that both offer.  `store ps` stores (for the bitset: assigns) a bitset with the positions `ps`; `«to» u
same` is `to<T>()` for a `T` of `u` bits, `same` saying that it is the word type of the bitset. -/
inductive Cmd where
  | load
  | store (ps : List Nat)
  | set (i : Nat) (v : Bool)
  | setRange (l m : Nat) (v : Bool)
  | setLen (l n : Nat) (v : Bool)
  | setAll
  | reset (i : Nat)
  | resetRange (l m : Nat)
  | resetLen (l n : Nat)
  | resetAll
  | flip (i : Nat)
  | flipAll
  | get (i : Nat)
  | all
  | any
  | none
  | count
  | to (u : Nat) (same : Bool)

/-- What the caller learns from a call. -/
inductive Ans where
  | done
  | was (bs : List Bool)
  | bool (b : Bool)
  | num (n : Nat)
  | rejected
  deriving DecidableEq, Repr

/-! ## The bitset -/

/-- Constructing the bitset, bitset.hpp:184-225. -/
def bmake (w N : Nat) : Make → Outcome (Words w)
  | .zero => .ok (Bitset.empty w N)
  | .value v => Bitset.ofU64 w N v
  | .place ps => Bitset.placeBits ps (Bitset.empty w N)
  | .all => Bitset.allBits w N
  | .str s pos n one => Bitset.ofString w N s pos n one

/-- A call that changes the bitset, after taking a copy. -/
def bchange {w : Nat} (N : Nat) (s : Words w) (r : Outcome (Words w)) : Outcome (Ans × Words w) := do
  let old ← readOut s N
  let s' ← r
  return (.was old, s')

/-- One call on the bitset, bitset.hpp:230-401. -/
def bstep {w : Nat} (N : Nat) : Cmd → Words w → Outcome (Ans × Words w)
  | .load, s => bchange N s (.ok s)
  | .store ps, _ => do
    let s ← Bitset.placeBits ps (Bitset.empty w N)
    return (.done, s)
  | .set i v, s => bchange N s (Bitset.set s i v)
  | .setRange l m v, s => bchange N s (Bitset.setRange s l m v)
  | .setLen l n v, s => bchange N s (Bitset.setLen s l n v)
  | .setAll, s => .ok (.done, Bitset.setAll s)
  | .reset i, s => bchange N s (Bitset.reset s i)
  | .resetRange l m, s => bchange N s (Bitset.resetRange s l m)
  | .resetLen l n, s => bchange N s (Bitset.resetLen s l n)
  | .resetAll, s => .ok (.done, Bitset.resetAll s)
  | .flip i, s => bchange N s (Bitset.flip s i)
  | .flipAll, s => bchange N s (.ok (Bitset.flipAll s))
  | .get i, s => do
    let b ← Bitset.get s i
    return (.bool b, s)
  | .all, s => do
    let b ← Bitset.all N s
    return (.bool b, s)
  | .any, s => do
    let b ← Bitset.any N s
    return (.bool b, s)
  | .none, s => do
    let b ← Bitset.isEmpty N s
    return (.bool b, s)
  | .count, s => do
    let n ← Bitset.count N s
    return (.num n, s)
  | .to u same, s =>
    match Bitset.to N u same s with
    | some r => do
      let x ← r
      return (.num x.toNat, s)
    | none => .ok (.rejected, s)

/-- All the calls, with what the caller learns from each. -/
def brun {w : Nat} (N : Nat) : List Cmd → Words w → Outcome (List Ans)
  | [], _ => .ok []
  | c :: cs, s => do
    let (x, s) ← bstep N c s
    let xs ← brun N cs s
    return x :: xs

/-! ## The atomic bitset -/

/-- Constructing the atomic bitset, atomic_bitset.hpp:66-81. -/
def amake (a N : Nat) : Make → Outcome (BitVec a)
  | .zero => .ok 0#a
  | .value v => ofValue a N v
  | .place ps => ofPlaceBits a ps
  | .all => ofAllBits a N
  | .str s pos n one => ofString a N s pos n one

/-- A member function that touches the storage, atomic_bitset.hpp:104-217, and reading what it returns. -/
def acall {a : Nat} (N : Nat) (op : Op a) (c : BitVec a) : Outcome (Ans × BitVec a) := do
  let (r, c) ← alone (impl N op) c
  match r with
  | some b => do
    let old ← readOut b N
    return (.was old, c)
  | none => return (.done, c)

/-- A member function that only looks, atomic_bitset.hpp:86-102, 120-122 and 219-236: one load, and a function of the
value loaded. -/
def alook {a : Nat} {β : Type} (ans : β → Ans) (q : BitVec a → Outcome β) (c : BitVec a) : Outcome (Ans × BitVec a) := do
  let (x, c) ← alone Conc.load c
  let r ← q x
  return (ans r, c)

/-- One call on the atomic bitset, atomic_bitset.hpp:86-236. -/
def astep {a : Nat} (N : Nat) : Cmd → BitVec a → Outcome (Ans × BitVec a)
  | .load, c => acall N .load c
  | .store ps, c => do
    let b ← Bitset.placeBits ps (Bitset.empty a N)
    acall N (.store b) c
  | .set i v, c => acall N (.set i v) c
  | .setRange l m v, c => acall N (.setRange l m v) c
  | .setLen l n v, c => acall N (.setLen l n v) c
  | .setAll, c => acall N .setAll c
  | .reset i, c => acall N (.reset i) c
  | .resetRange l m, c => acall N (.resetRange l m) c
  | .resetLen l n, c => acall N (.resetLen l n) c
  | .resetAll, c => acall N .resetAll c
  | .flip i, c => acall N (.flip i) c
  | .flipAll, c => acall N .flipAll c
  | .get i, c => alook .bool (fun x => get N x i) c
  | .all, c => alook .bool (all N) c
  | .any, c => alook .bool (any N) c
  | .none, c => alook .bool (none' N) c
  | .count, c => alook .num (count N) c
  | .to u _, c =>
    match «to» N u c with
    | some r => alook (fun x : BitVec u => .num x.toNat) (fun _ => r) c
    | none => .ok (.rejected, c)

/-- All the calls, with what the caller learns from each. -/
def arun {a : Nat} (N : Nat) : List Cmd → BitVec a → Outcome (List Ans)
  | [], _ => .ok []
  | c :: cs, x => do
    let (r, x) ← astep N c x
    let rs ← arun N cs x
    return r :: rs

/-- `size()` of a bitset is `count()`, bitset.hpp:388. -/
def bsize {w : Nat} (N : Nat) (s : Words w) : Outcome Nat := Bitset.count N s

/-- `size()` of an atomic bitset is the constant `N`, atomic_bitset.hpp:118. -/
def asize (N : Nat) : Nat := N

end Verif.AtomicBitset
