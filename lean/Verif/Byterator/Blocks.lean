import Verif.Byterator.Model

/-!
# Byterators of sequences in several arrays, and the requirements of iterators

A byterator is made from any random access iterator (/repo/include/stdx/byterator.hpp:18-22, 68-69), not only from those of arrays: the
elements of a `std::deque` are in several arrays.  `std::to_address` gives a pointer into one of them.  Iterators past the end, which
`std::to_address` is given by the loops of docs/byterator.adoc, are not modelled: no byte is at them.
-/

namespace Verif.Byterator

/-- A pointer: into which array, and how far from its start (byterator.hpp:36). -/
structure Ptr where
  array : Nat
  off : Int
  deriving DecidableEq, Repr

/-- Array and offset of byte `i` of a sequence whose elements are in these arrays (what the iterator given to byterator.hpp:68-69
refers to). -/
def place : List (List (BitVec 8)) → Nat → Option (Nat × Nat)
  | [], _ => none
  | b :: bs, i => if i < b.length then some (0, i) else (place bs (i - b.length)).map fun p => (p.1 + 1, p.2)

/-- Construction from an iterator at element `k`, elements being of `sz` bytes: `std::to_address(it)` (byterator.hpp:68-69). -/
def ptrOfIter (bs : List (List (BitVec 8))) (sz k : Nat) : Outcome Ptr :=
  match place bs (k * sz) with
  | some p => .ok ⟨p.1, p.2⟩
  | none => .ub

/-- `ptr += d`, defined within one array (byterator.hpp:75, 84, 94, 98, 102). -/
def Ptr.add (bs : List (List (BitVec 8))) (p : Ptr) (d : Int) : Outcome Ptr :=
  match bs[p.array]? with
  | some b => do
    let q ← ptrAdd ⟨0, b⟩ p.off d
    return ⟨p.array, q⟩
  | none => .ub

/-- `operator*` (byterator.hpp:72). -/
def Ptr.get (bs : List (List (BitVec 8))) (p : Ptr) : Outcome (BitVec 8) :=
  match bs[p.array]? with
  | some b => deref ⟨0, b⟩ p.off
  | none => .ub

/-- `*(byterator{it} + n)` (byterator.hpp:68-69, 72, 106-111). -/
def byteFrom (bs : List (List (BitVec 8))) (sz k : Nat) (n : Int) : Outcome (BitVec 8) := do
  let p ← ptrOfIter bs sz k
  let q ← p.add bs n
  q.get bs

/-- `n` times `*i` and `++i` (byterator.hpp:72-77). -/
def walk (bs : List (List (BitVec 8))) : Nat → Ptr → Outcome (List (BitVec 8))
  | 0, _ => .ok []
  | n + 1, p => do
    let x ← p.get bs
    let q ← p.add bs 1
    let xs ← walk bs n q
    return x :: xs

/-- The same from an iterator at element `k` (byterator.hpp:68-77). -/
def walkFrom (bs : List (List (BitVec 8))) (sz k n : Nat) : Outcome (List (BitVec 8)) := do
  let p ← ptrOfIter bs sz k
  walk bs n p

/-! ## Types -/

/-- An lvalue of type `std::byte` or `std::byte const` (byterator.hpp:34-35). -/
structure ByteRef where
  const : Bool
  deriving DecidableEq, Repr

/-- An lvalue of the first type can be bound to a reference of the second: `const` may be added ([dcl.init.ref], for byterator.hpp:65-66,
72). -/
def ByteRef.bindsTo (x y : ByteRef) : Bool := !x.const || y.const

/-- `byterator<T>`: whether `T` is `const` (byterator.hpp:33-36). -/
structure BType where
  const : Bool
  deriving DecidableEq, Repr

/-- The type of `*i` (byterator.hpp:72). -/
def BType.deref (b : BType) : ByteRef := ⟨b.const⟩

/-- The type of `i[n]`; `self` says whether `i` itself is `const` (byterator.hpp:128-134). -/
def BType.index (b : BType) (self : Bool) : ByteRef := ⟨b.const || self⟩

/-- The member `reference`, which is also that of `std::iterator_traits` (byterator.hpp:63-66). -/
def BType.reference (_ : BType) : ByteRef := ⟨false⟩

/-- Whether there is a default constructor: the only constructor takes an iterator (byterator.hpp:68-69). -/
def BType.defaultConstructible (_ : BType) : Bool := false

/-- `byterator{it}`, deduced from what `it` points at (byterator.hpp:24-30, 226-227). -/
def BType.ofIter (elemConst : Bool) : BType := ⟨elemConst⟩

/-- `std::reverse_iterator` has `operator*`, which returns a `reference` made from `*i` ([reverse.iter.elem], for byterator.hpp:63-66). -/
def BType.reversible (b : BType) : Bool := b.deref.bindsTo b.reference

end Verif.Byterator
