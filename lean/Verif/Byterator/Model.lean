import Verif.Base
import Verif.Endian.Model

/-!
# Model of `stdx::byterator<T>` (/repo/include/stdx/byterator.hpp)

The underlying storage is one array object: its start address and its bytes.  A byterator is the
offset of its pointer from the start.  Pointer arithmetic is defined only inside the array and one
past its end; dereferencing only inside.  Values are unsigned integers: their object representation is
what `memcpy` copies (signed ones: `Verif.Byterator.Signed`).  Byterators of `const` elements are in `Verif.Byterator.Const`.
Not modelled: writing an object that itself lies in the storage (overlapping `memcpy` is undefined).
-/

namespace Verif.Byterator

open Verif.Endian

/-- The storage the byterator walks over (byterator.hpp:33-36). -/
structure Mem where
  base : Nat
  bytes : List (BitVec 8)
  deriving DecidableEq, Repr

/-- `ptr += d` for a `std::byte` pointer (byterator.hpp:75,84,94,98,102). -/
def ptrAdd (m : Mem) (p d : Int) : Outcome Int :=
  if 0 ≤ p + d ∧ p + d ≤ m.bytes.length then .ok (p + d) else .ub

/-- Construction from an iterator of an array of `T` pointing at element `k`
(`to_address`, byterator.hpp:68-69); `sz` is `sizeof(T)`. -/
def ofIter (m : Mem) (sz k : Nat) : Outcome Int := ptrAdd m 0 (k * sz : Nat)

/-- `operator*`, read, byterator.hpp:72. -/
def deref (m : Mem) (p : Int) : Outcome (BitVec 8) :=
  match p with
  | .ofNat i => arrGet m.bytes i
  | .negSucc _ => .ub

/-- Assignment through `operator*` (byterator.hpp:72). -/
def assign (m : Mem) (p : Int) (b : BitVec 8) : Outcome Mem :=
  match p with
  | .ofNat i => do
    let bs ← arrSet m.bytes i b
    return { m with bytes := bs }
  | .negSucc _ => .ub

/-- `operator++`, byterator.hpp:74-77: the new position. -/
def inc (m : Mem) (p : Int) : Outcome Int := ptrAdd m p 1

/-- `operator++(int)`, byterator.hpp:78-82: the result and the new position. -/
def postInc (m : Mem) (p : Int) : Outcome (Int × Int) := do
  let tmp := p
  let q ← inc m p
  return (tmp, q)

/-- `operator--`, byterator.hpp:83-86. -/
def dec (m : Mem) (p : Int) : Outcome Int := ptrAdd m p (-1)

/-- `operator--(int)`, byterator.hpp:87-91. -/
def postDec (m : Mem) (p : Int) : Outcome (Int × Int) := do
  let tmp := p
  let q ← dec m p
  return (tmp, q)

/-- `operator+=`, byterator.hpp:93-96; `advance(d)` (101-104) is the same. -/
def addAssign (m : Mem) (p d : Int) : Outcome Int := ptrAdd m p d

/-- `operator-=`, byterator.hpp:97-100. -/
def subAssign (m : Mem) (p d : Int) : Outcome Int := ptrAdd m p (-d)

/-- `i + d` and `d + i`, byterator.hpp:106-116. -/
def plus (m : Mem) (p d : Int) : Outcome Int := addAssign m p d

/-- `i - d`, byterator.hpp:117-122. -/
def minus (m : Mem) (p d : Int) : Outcome Int := subAssign m p d

/-- `x - y`, byterator.hpp:123-126. -/
def diff (p q : Int) : Int := p - q

/-- `i[n]`, read, byterator.hpp:128-134. -/
def index (m : Mem) (p n : Int) : Outcome (BitVec 8) := deref m (p + n)

/-- `x == y`, byterator.hpp:38-41. -/
def eq (p q : Int) : Bool := p == q

/-- `x < y`, from `<=>` on the pointers, byterator.hpp:50-53. -/
def less (p q : Int) : Bool := p < q

/-- The address of a pointer (byterator.hpp:45-46, 150). -/
def address (m : Mem) (p : Int) : Int := m.base + p

/-- `x == it` with an iterator at element `k` of the underlying array of elements of size `sz`,
byterator.hpp:42-48: both are compared as `void const *`. -/
def eqIter (m : Mem) (p : Int) (sz k : Nat) : Bool := address m p == m.base + k * sz

/-- `x < it`, byterator.hpp:54-59. -/
def lessIter (m : Mem) (p : Int) (sz k : Nat) : Bool := address m p < m.base + k * sz

/-- `memcpy` of `n` bytes from the pointer: all must be inside the array (byterator.hpp:140). -/
def load (m : Mem) (p : Int) (n : Nat) : Outcome (List (BitVec 8)) :=
  if 0 ≤ p ∧ p + n ≤ m.bytes.length then .ok ((m.bytes.drop p.toNat).take n) else .ub

/-- `memcpy` to the pointer (byterator.hpp:169). -/
def store (m : Mem) (p : Int) (bs : List (BitVec 8)) : Outcome Mem :=
  if 0 ≤ p ∧ p + bs.length ≤ m.bytes.length then
    .ok { m with bytes := m.bytes.take p.toNat ++ bs ++ m.bytes.drop (p.toNat + bs.length) }
  else .ub

/-- `peek<V, R>()`, byterator.hpp:136-142, for an unsigned `V` of `n` bytes and an unsigned `R` of
`r` bits (the conversion is `static_cast<R>`).  `peeku8` ... `peeku64` (173-223) fix `n`. -/
def peek (e : Endian) (m : Mem) (p : Int) (n r : Nat) : Outcome (BitVec r) := do
  let bs ← load m p n
  return (ofMem e n bs).setWidth r

/-- `read<V, R>()`, byterator.hpp:157-163: the result and the new position. -/
def read (e : Endian) (m : Mem) (p : Int) (n r : Nat) : Outcome (BitVec r × Int) := do
  let ret ← peek e m p n r
  let q ← ptrAdd m p n
  return (ret, q)

/-- `write(v)`, byterator.hpp:165-171: the new storage and the new position. -/
def write (e : Endian) (m : Mem) (p : Int) (n : Nat) (v : BitVec (8 * n)) : Outcome (Mem × Int) := do
  let m' ← store m p (mem e n v)
  let q ← ptrAdd m' p n
  return (m', q)

/-- `writeu8` ... `writeu64`, byterator.hpp:182-223: the argument of `r` bits is converted first. -/
def writeAs (e : Endian) (m : Mem) (p : Int) (n : Nat) {r : Nat} (v : BitVec r) : Outcome (Mem × Int) :=
  write e m p n (v.setWidth (8 * n))

/-- The address computed by `advance_to_alignment<V>` for `sizeof(V) = sz`, byterator.hpp:150-153:
64-bit unsigned arithmetic. -/
def alignAddr (p : BitVec 64) (sz : Nat) : BitVec 64 :=
  let offset := BitVec.ofNat 64 sz - 1#64
  let mask := ~~~offset
  (p + offset) &&& mask

/-- `advance_to_alignment<V>(n)`, byterator.hpp:148-155.  The pointer made from the integer must be
in the array for the arithmetic that follows to be defined. -/
def advanceToAlignment (m : Mem) (p : Int) (sz : Nat) (n : Int) : Outcome Int := do
  let a := alignAddr (BitVec.ofInt 64 (address m p)) sz
  let q ← ptrAdd m ((a.toNat : Int) - m.base) 0
  ptrAdd m q (n * sz)

/-- Write a sequence of values of any sizes (byterator.hpp:165-171). -/
def writeAll (e : Endian) : Mem → Int → List (Σ n : Nat, BitVec (8 * n)) → Outcome (Mem × Int)
  | m, p, [] => .ok (m, p)
  | m, p, v :: vs => do
    let r ← write e m p v.1 v.2
    writeAll e r.1 r.2 vs

/-- Read a sequence of values of the given sizes (byterator.hpp:157-163). -/
def readAll (e : Endian) (m : Mem) : Int → List Nat → Outcome (List (Σ n : Nat, BitVec (8 * n)) × Int)
  | p, [] => .ok ([], p)
  | p, n :: ns => do
    let r ← read e m p n (8 * n)
    let rs ← readAll e m r.2 ns
    return (⟨n, r.1⟩ :: rs.1, rs.2)

/-- What can be done with one byterator (byterator.hpp:72-224). -/
inductive Op where
  | write (n : Nat) (v : BitVec (8 * n))
  | writeAs (n : Nat) (r : Nat) (v : BitVec r)
  | read (n r : Nat)
  | peek (n r : Nat)
  | advance (d : Int)
  | advanceBy (n : Nat)
  | inc
  | dec
  | deref
  | assign (b : BitVec 8)
  | index (i : Int)
  | align (k : Nat) (n : Int)

/-- What an operation returns: nothing, or the value read (byterator.hpp:72-224). -/
inductive Out where
  | unit
  | val (v : Nat)
  deriving DecidableEq, Repr

/-- One operation on the storage and the position (byterator.hpp:72-224).  `advanceBy n` is `advance<V>()`
for a `V` of `n` bytes (144-146); `align k n` is `advance_to_alignment<V>(n)` for a `V` of `2^k` bytes. -/
def step (e : Endian) (m : Mem) (p : Int) : Op → Outcome ((Mem × Int) × Out)
  | .write n v => do let r ← Byterator.write e m p n v; return (r, .unit)
  | .writeAs n _ v => do let r ← Byterator.writeAs e m p n v; return (r, .unit)
  | .read n r => do let (x, q) ← Byterator.read e m p n r; return ((m, q), .val x.toNat)
  | .peek n r => do let x ← Byterator.peek e m p n r; return ((m, p), .val x.toNat)
  | .advance d => do let q ← addAssign m p d; return ((m, q), .unit)
  | .advanceBy n => do let q ← addAssign m p n; return ((m, q), .unit)
  | .inc => do let q ← Byterator.inc m p; return ((m, q), .unit)
  | .dec => do let q ← Byterator.dec m p; return ((m, q), .unit)
  | .deref => do let b ← Byterator.deref m p; return ((m, p), .val b.toNat)
  | .assign b => do let m' ← Byterator.assign m p b; return ((m', p), .unit)
  | .index i => do let b ← Byterator.index m p i; return ((m, p), .val b.toNat)
  | .align k n => do let q ← advanceToAlignment m p (2 ^ k) n; return ((m, q), .unit)

/-- A history of operations (byterator.hpp:72-224). -/
def run (e : Endian) (m : Mem) (p : Int) : List Op → Outcome ((Mem × Int) × List Out)
  | [] => .ok ((m, p), [])
  | o :: os => do
    let (s, r) ← step e m p o
    let (s', rs) ← run e s.1 s.2 os
    return (s', r :: rs)

end Verif.Byterator
