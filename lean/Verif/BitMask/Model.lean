import Verif.Word

/-!
# Model of `stdx::bit_mask`, `stdx::bit_destructure` and `stdx::smallest_uint`
(/repo/include/stdx/bit.hpp:341-464)

`std::size_t` arguments are natural numbers below `2^64`; the sums `Msb + 1` wrap.
-/

namespace Verif.BitMask

/-- `detail::mask_bits_t<T>::operator()`, bit.hpp:349-359. -/
def maskBits (w bit : Nat) : Outcome (BitVec w) :=
  if bit = w then .ok (BitVec.allOnes w)
  else do
    let t ← cshl 1#w bit
    return t - 1#w

/-- Run-time `bit_mask<T>(Msb, Lsb)` for an unsigned `T`, bit.hpp:408-413 with the word version of
`bitmask_subtract` (379-383). -/
def bitMask (w msb lsb : Nat) : Outcome (BitVec w) := do
  let a ← maskBits w (szInc msb)
  let b ← maskBits w lsb
  return a ^^^ b

/-- `bit_mask<T, Msb, Lsb>()`, bit.hpp:398-406; `none` when a `static_assert` rejects the program.
-/
def bitMaskStatic (w msb lsb : Nat) : Option (Outcome (BitVec w)) :=
  if msb < w ∧ msb ≥ lsb then some (bitMask w msb lsb) else none

/-- The loop of the array version of `mask_bits_t`, bit.hpp:368-370: `k` iterations left, writing
through the pointer `p`. -/
def fillLoop (w : Nat) : Nat → List (BitVec w) → Nat → Outcome (List (BitVec w) × Nat)
  | 0, r, p => .ok (r, p)
  | k + 1, r, p => do
    let v ← maskBits w w
    let r ← arrSet r p v
    fillLoop w k r (p + 1)

/-- `detail::mask_bits_t<std::array<T, N>>::operator()`, bit.hpp:361-377. -/
def maskBitsArr (w n bit : Nat) : Outcome (List (BitVec w)) := do
  let quot := bit / w
  let rem := bit % w
  let (r, p) ← fillLoop w quot (List.replicate n 0#w) 0
  if rem ≠ 0 then do
    let v ← maskBits w rem
    arrSet r p v
  else return r

/-- The loop of the array version of `bitmask_subtract`, bit.hpp:385-395, from index `i` with `k`
iterations left. -/
def subLoop {w : Nat} (x y : List (BitVec w)) : Nat → Nat → List (BitVec w) →
    Outcome (List (BitVec w))
  | 0, _, r => .ok r
  | k + 1, i, r => do
    let a ← arrGet x i
    let b ← arrGet y i
    let r ← arrSet r i (a ^^^ b)
    subLoop x y k (i + 1) r

/-- `bit_mask<std::array<T, N>>(Msb, Lsb)`, bit.hpp:408-413. -/
def bitMaskArr (w n msb lsb : Nat) : Outcome (List (BitVec w)) := do
  let a ← maskBitsArr w n (szInc msb)
  let b ← maskBitsArr w n lsb
  subLoop a b n 0 (List.replicate n 0#w)

/-- `bit_detail::shifts<Offsets...>`, bit.hpp:434-443, for the offsets that follow the initial
zero, `prev` being the offset before them: `s[0] = 0` and then the differences, computed in
`std::size_t` (wrapping). -/
def shiftDiffs (prev : Nat) : List Nat → List Nat
  | [] => []
  | o :: os => (o + (szMod - prev)) % szMod :: shiftDiffs o os

/-- `shift_extract<Shift, Msb>(t)`, bit.hpp:445-450: the new `t` and the extracted field; `none`
when `bit_mask<T, Msb>` rejects the program. -/
def shiftExtract {w : Nat} (shift msb : Nat) (t : BitVec w) : Option (Outcome (BitVec w × BitVec w)) :=
  match bitMaskStatic w msb 0 with
  | none => none
  | some m => some (do
    let t ← cshr t shift
    let m ← m
    return (t, t &&& m))

/-- `bit_destructure_impl`, bit.hpp:452-457: the calls of `shift_extract` are evaluated left to
right on the same `t` (braced initialiser).  `shift` is `shifts[Is]`, the list holds
`shifts[Is + 1], …`.  A call that is rejected rejects the program, whatever the calls before it do.
-/
def extractAll {w : Nat} (shift : Nat) : List Nat → BitVec w → Option (Outcome (List (BitVec w)))
  | [], _ => some (.ok [])
  | s :: ss, t =>
    match shiftExtract shift (szDec s) t with
    | none => none
    | some .ub => (extractAll s ss t).map fun _ => .ub
    | some .panic => (extractAll s ss t).map fun _ => .panic
    | some (.ok (t', f)) =>
      match extractAll s ss t' with
      | none => none
      | some r => some (do let fs ← r; return f :: fs)

/-- `bit_destructure<Offsets...>(t)`, bit.hpp:460-464. -/
def bitDestructure {w : Nat} (offsets : List Nat) (t : BitVec w) :
    Option (Outcome (List (BitVec w))) :=
  extractAll 0 (shiftDiffs 0 (offsets ++ [w])) t

/-- `smallest_uint<N>()`, bit.hpp:419-429: width of the returned type. -/
def smallestUint (n : Nat) : Nat :=
  if n ≤ 8 then 8 else if n ≤ 16 then 16 else if n ≤ 32 then 32 else 64

end Verif.BitMask
