import Verif.Base

/-!
# Model of `stdx::span<T, Extent>` (/repo/include/stdx/span.hpp)

The elements live in one array object, `mem : List α`; a pointer into it is a position (`some p`, up to and
including one past the end) or null.  A span is its extent, the stored size (dynamic extent only,
span.hpp:34-57) and its pointer.  Results in `Option`: `none` means that a `static_assert` fails, so the
call does not compile.  Pointer arithmetic outside the array and dereferencing outside it are undefined.
-/

namespace Verif.Span

/-- `dynamic_extent`, span.hpp:20. -/
def dynamicExtent : Nat := 18446744073709551615

/-- `span<T, Extent>`, span.hpp:23-65: `ext` is `Extent`, `sz` the member of `span_base<T, dynamic_extent>`
(0 and unused for a static extent), `ptr` the pointer. -/
structure Span where
  ext : Nat
  sz : Nat
  ptr : Option Nat
  deriving DecidableEq

/-- `size()`, span.hpp:28 and 48-50. -/
def size (s : Span) : Nat := if s.ext = dynamicExtent then s.sz else s.ext

/-- `empty()`, span.hpp:31 and 54-56. -/
def empty (s : Span) : Bool := if s.ext = dynamicExtent then s.sz == 0 else s.ext == 0

/-- `size_bytes()`, span.hpp:29-30 and 51-53, for elements of `k` bytes. -/
def sizeBytes (k : Nat) (s : Span) : Nat := size s * k % 18446744073709551616

/-- `ptr + k` and `ptr - k` as in `end()`, `last` and `subspan`, span.hpp:158, 194, 198, 211, 215, 218 and 225: the result must be null + 0 or in the array or one past its end. -/
def ptrAdd (len : Nat) (p : Option Nat) (k : Int) : Outcome (Option Nat) :=
  match p with
  | none => if k = 0 then .ok none else .ub
  | some q => if 0 ≤ (q : Int) + k ∧ (q : Int) + k ≤ len then .ok (some ((q : Int) + k).toNat) else .ub

variable {α : Type}

/-- The constructor `span(first, sore)` with a pointer and a count, span.hpp:85-93: a static extent ignores
the count (span_base, 25-26). -/
def ofPtrCount (ext : Nat) (p : Option Nat) (n : Nat) : Span := ⟨ext, if ext = dynamicExtent then n else 0, p⟩

/-- `span(first, last)` with two pointers, span.hpp:85-93 and 40-42: `static_cast<size_t>(distance)`. -/
def ofPtrs (ext p q : Nat) : Span :=
  ⟨ext, if ext = dynamicExtent then (((q : Int) - p) % 18446744073709551616).toNat else 0, some p⟩

/-- `span(array)` for `std::array<T, N>` and C arrays, span.hpp:95-118, the array being at position `p`. -/
def ofArray (ext p N : Nat) : Option Span :=
  if ext = dynamicExtent ∨ ext ≤ N then some (ofPtrCount ext (some p) N) else none

/-- `span(r)` for a contiguous range `[p, q)`, span.hpp:120-129: no check for a static extent. -/
def ofRange (ext p q : Nat) : Span := ofPtrs ext p q

/-- `span(span<U, N>)`, span.hpp:131-138: both overloads; no check for a static extent. -/
def ofSpan (ext : Nat) (s : Span) : Span := ofPtrCount ext s.ptr (size s)

/-- `span()`, span.hpp:83: null for every extent. -/
def default (ext : Nat) : Span := ⟨ext, 0, none⟩

/-- `operator[]`, span.hpp:177-179. -/
def get (mem : List α) (s : Span) (i : Nat) : Outcome α :=
  match s.ptr with
  | none => .ub
  | some p => arrGet mem (p + i)

/-- `get<I>(s)`, span.hpp:229-233. -/
def getS (mem : List α) (I : Nat) (s : Span) : Option (Outcome α) :=
  if s.ext = dynamicExtent ∨ I < s.ext then some (get mem s I) else none

/-- `tuple_element<I, span<T, N>>`, span.hpp:288-292: whether it is defined. -/
def tupleElementOk (I : Nat) (s : Span) : Bool := s.ext ≠ dynamicExtent ∧ I < s.ext

/-- Assignment through the reference that `operator[]` returns, span.hpp:177-179. -/
def set (mem : List α) (s : Span) (i : Nat) (v : α) : Outcome (List α) :=
  match s.ptr with
  | none => .ub
  | some p => arrSet mem (p + i) v

/-- `front()`, span.hpp:172: `*begin()`. -/
def front (mem : List α) (s : Span) : Outcome α := get mem s 0

/-- `back()`, span.hpp:173-175: `*std::prev(end())`. -/
def back (mem : List α) (s : Span) : Outcome α := do
  let e ← ptrAdd mem.length s.ptr (size s)
  let q ← ptrAdd mem.length e (-1)
  match q with
  | none => .ub
  | some q => arrGet mem q

/-- Reading the elements from position `p` on, `n` of them, as a loop over the pointers of span.hpp:144-161. -/
def readFrom (mem : List α) : Nat → Nat → Outcome (List α)
  | _, 0 => .ok []
  | p, n + 1 => do
    let x ← arrGet mem p
    let xs ← readFrom mem (p + 1) n
    return x :: xs

/-- A loop from `begin()` to `end()`, span.hpp:144-161. -/
def toList (mem : List α) (s : Span) : Outcome (List α) := do
  let _ ← ptrAdd mem.length s.ptr (size s)
  match s.ptr with
  | none => .ok []
  | some p => readFrom mem p (size s)

/-- Reading the elements before position `p`, `n` of them, from the last one down, as a loop over the
`std::reverse_iterator`s of span.hpp:150-170. -/
def readBack (mem : List α) : Nat → Nat → Outcome (List α)
  | _, 0 => .ok []
  | 0, _ + 1 => .ub
  | p + 1, n + 1 => do
    let x ← arrGet mem p
    let xs ← readBack mem p n
    return x :: xs

/-- A loop from `rbegin()` to `rend()`, span.hpp:150-170. -/
def toListRev (mem : List α) (s : Span) : Outcome (List α) := do
  let e ← ptrAdd mem.length s.ptr (size s)
  match e with
  | none => .ok []
  | some p => readBack mem p (size s)

/-- `first<Count>()`, span.hpp:181-185. -/
def firstS (count : Nat) (s : Span) : Option Span :=
  if count ≤ s.ext then some (ofPtrCount count s.ptr count) else none

/-- `first(count)`, span.hpp:186-189. -/
def firstD (count : Nat) (s : Span) : Span := ofPtrCount dynamicExtent s.ptr count

/-- `last<Count>()`, span.hpp:191-195. -/
def lastS (len count : Nat) (s : Span) : Option (Outcome Span) :=
  if count ≤ s.ext then some (do
    let e ← ptrAdd len s.ptr (size s)
    let p ← ptrAdd len e (-count)
    return ofPtrCount count p count)
  else none

/-- `last(count)`, span.hpp:196-199. -/
def lastD (len count : Nat) (s : Span) : Outcome Span := do
  let e ← ptrAdd len s.ptr (size s)
  let p ← ptrAdd len e (-count)
  return ofPtrCount dynamicExtent p count

/-- `this->size() - Offset` in `std::size_t`, span.hpp:219 and 225. -/
def szSub (a b : Nat) : Nat := (((a : Int) - b) % 18446744073709551616).toNat

/-- `subspan<Offset, Count>()`, span.hpp:201-220. -/
def subspanS (len offset count : Nat) (s : Span) : Option (Outcome Span) :=
  if count ≠ dynamicExtent then
    if offset ≤ s.ext ∧ count ≤ s.ext ∧ offset ≤ s.ext - count then some (do
      let p ← ptrAdd len s.ptr offset
      return ofPtrCount count p count)
    else none
  else if s.ext ≠ dynamicExtent then
    if offset ≤ s.ext then some (do
      let p ← ptrAdd len s.ptr offset
      return ofPtrCount (s.ext - offset) p (s.ext - offset))
    else none
  else some (do
    let p ← ptrAdd len s.ptr offset
    return ofPtrCount dynamicExtent p (szSub (size s) offset))

/-- `subspan(Offset, Count)`, span.hpp:222-226. -/
def subspanD (len offset count : Nat) (s : Span) : Outcome Span := do
  let p ← ptrAdd len s.ptr offset
  return ofPtrCount dynamicExtent p (min count (szSub (size s) offset))

/-- `as_bytes(s)` and `as_writable_bytes(s)`, span.hpp:236-257, for elements of `k` bytes: the pointer is into
the bytes of the array. -/
def asBytes (k : Nat) (s : Span) : Span :=
  if s.ext = dynamicExtent then ofPtrCount dynamicExtent (s.ptr.map (· * k)) (sizeBytes k s)
  else ofPtrCount (sizeBytes k s) (s.ptr.map (· * k)) (sizeBytes k s)

end Verif.Span
