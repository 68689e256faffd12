import Verif.BitOps.Model
import Verif.BitMask.Model

/-!
# Model of `stdx::bitset<N, elem_t>` (/repo/include/stdx/bitset.hpp:24-520)

The storage `std::array<elem_t, storage_size>` is a list of `w`-bit words.  `std::size_t` positions
are natural numbers; sums of a position and a word width are taken not to exceed `2^64`.  Subscripts
outside the array are undefined.  Narrow words are promoted to `int` before shifting; the amounts
used here are below the word width, where truncation gives the same result (`cshl`, `cshr`).
Enumeration indices are their underlying values.
-/

namespace Verif.Bitset

open Verif.BitOps

/-- The storage array (bitset.hpp:78). -/
abbrev Words (w : Nat) := List (BitVec w)

/-- `storage_size`, bitset.hpp:73-74. -/
def storageSize (w N : Nat) : Nat := (N + w - 1) / w

/-- `lastmask`, bitset.hpp:80-86. -/
def lastmask (w N : Nat) : BitVec w :=
  if N % w ≠ 0 then BitVec.allOnes w >>> (w - N % w) else BitVec.allOnes w

/-- `storage.back()`: undefined for an empty array (bitset.hpp:88, 211, 490). -/
def back {w : Nat} (s : Words w) : Outcome (BitVec w) :=
  match s.getLast? with
  | some e => .ok e
  | none => .ub

/-- `highbits()`, bitset.hpp:87-89. -/
def highbits {w : Nat} (N : Nat) (s : Words w) : Outcome (BitVec w) := do
  let e ← back s
  return e &&& lastmask w N

/-- The loop of `operator==`, bitset.hpp:104-108, with `k` iterations left from index `i`; the
result says whether no difference was found. -/
def eqLoop {w : Nat} (a b : Words w) : Nat → Nat → Outcome Bool
  | 0, _ => .ok true
  | k + 1, i => do
    let x ← arrGet a i
    let y ← arrGet b i
    if x ≠ y then return false else eqLoop a b k (i + 1)

/-- `operator==`, bitset.hpp:99-110. -/
def eq {w : Nat} (N : Nat) (a b : Words w) : Outcome Bool :=
  if N = 0 then .ok true
  else do
    let r ← eqLoop a b (szDec (storageSize w N)) 0
    if r = false then return false
    else do
      let x ← highbits N a
      let y ← highbits N b
      return x == y

/-! ## Single bits -/

/-- `operator[]`, bitset.hpp:261-269 with `indices` 91-97. -/
def get {w : Nat} (s : Words w) (pos : Nat) : Outcome Bool := do
  let e ← arrGet s (pos / w)
  let b ← cshl 1#w (pos % w)
  return (e &&& b) != 0#w

/-- `set(idx, value)`, bitset.hpp:271-284. -/
def set {w : Nat} (s : Words w) (pos : Nat) (value : Bool) : Outcome (Words w) := do
  let e ← arrGet s (pos / w)
  let b ← cshl 1#w (pos % w)
  if value then arrSet s (pos / w) (e ||| b) else arrSet s (pos / w) (e &&& ~~~b)

/-- `reset(idx)`, bitset.hpp:329-338. -/
def reset {w : Nat} (s : Words w) (pos : Nat) : Outcome (Words w) := do
  let e ← arrGet s (pos / w)
  let b ← cshl 1#w (pos % w)
  arrSet s (pos / w) (e &&& ~~~b)

/-- `flip(idx)`, bitset.hpp:360-368. -/
def flip {w : Nat} (s : Words w) (pos : Nat) : Outcome (Words w) := do
  let e ← arrGet s (pos / w)
  let b ← cshl 1#w (pos % w)
  arrSet s (pos / w) (e ^^^ b)

/-! ## Ranges -/

/-- `fn(&storage[i], val)` in `set(lsb, msb, value)`, bitset.hpp:293-299. -/
def applyMask {w : Nat} (value : Bool) (s : Words w) (i : Nat) (val : BitVec w) :
    Outcome (Words w) := do
  let e ← arrGet s i
  if value then arrSet s i (e ||| val) else arrSet s i (e &&& ~~~val)

/-- The loop at bitset.hpp:306-308.  Each iteration touches `storage[l]`, so a loop that does not
meet `m` runs off the end of the array (`ub`) before the counter given here is used up. -/
def rangeLoop {w : Nat} (value : Bool) (mask : BitVec w) :
    Nat → Words w → Nat → Nat → Outcome (Words w × Nat)
  | 0, s, l, m => if l = m then .ok (s, l) else .ub
  | k + 1, s, l, m =>
    if l = m then .ok (s, l)
    else do
      let s ← applyMask value s l mask
      rangeLoop value mask k s (l + 1) m

/-- The end of `set(lsb, msb, value)`, bitset.hpp:306-312. -/
def setRangeTail {w : Nat} (value : Bool) (s : Words w) (li mi m : Nat) (lmask : BitVec w) :
    Outcome (Words w) := do
  let (s, li) ← rangeLoop value lmask s.length s li mi
  let mmask ← cshr (BitVec.allOnes w) (w - m % w - 1)
  applyMask value s li (lmask &&& mmask)

/-- `set(lsb, msb, value)`, bitset.hpp:286-313. -/
def setRange {w : Nat} (s : Words w) (l m : Nat) (value : Bool) : Outcome (Words w) := do
  let lmask ← cshl (BitVec.allOnes w) (l % w)
  if l / w ≠ m / w then do
    let s ← applyMask value s (l / w) lmask
    setRangeTail value s (l / w + 1) (m / w) m (BitVec.allOnes w)
  else setRangeTail value s (l / w) (m / w) m lmask

/-- `l + length - 1` on the `std::uint32_t` underlying types of `lsb_t` and `length_t`
(udls.hpp:82-84). -/
def lenToMsb (l len : Nat) : Nat := (l + len + 4294967295) % 4294967296

/-- `set(lsb, len, value)`, bitset.hpp:315-320. -/
def setLen {w : Nat} (s : Words w) (l len : Nat) (value : Bool) : Outcome (Words w) :=
  setRange s l (lenToMsb l len) value

/-- `reset(lsb, msb)`, bitset.hpp:347-349. -/
def resetRange {w : Nat} (s : Words w) (l m : Nat) : Outcome (Words w) := setRange s l m false

/-- `reset(lsb, len)`, bitset.hpp:351-353. -/
def resetLen {w : Nat} (s : Words w) (l len : Nat) : Outcome (Words w) := setLen s l len false

/-! ## Whole set -/

/-- `set()`, bitset.hpp:322-327. -/
def setAll {w : Nat} (s : Words w) : Words w := s.map fun _ => BitVec.allOnes w

/-- `reset()`, bitset.hpp:340-345. -/
def resetAll {w : Nat} (s : Words w) : Words w := s.map fun _ => 0#w

/-- `flip()`, bitset.hpp:370-375. -/
def flipAll {w : Nat} (s : Words w) : Words w := s.map fun e => e ^^^ BitVec.allOnes w

/-- The index loops of `|=`, `&=`, `^=`: `k` iterations left from index `i` (bitset.hpp:424-426,
430-432, 436-438). -/
def zipLoop {w : Nat} (f : BitVec w → BitVec w → BitVec w) (rhs : Words w) :
    Nat → Nat → Words w → Outcome (Words w)
  | 0, _, s => .ok s
  | k + 1, i, s => do
    let x ← arrGet s i
    let y ← arrGet rhs i
    let s ← arrSet s i (f x y)
    zipLoop f rhs k (i + 1) s

/-- `operator|=`, bitset.hpp:423-428 (`operator|` 112-115 copies and applies it). -/
def or {w : Nat} (N : Nat) (s rhs : Words w) : Outcome (Words w) :=
  zipLoop (· ||| ·) rhs (storageSize w N) 0 s

/-- `operator&=`, bitset.hpp:429-434 (`operator&` 117-120). -/
def and {w : Nat} (N : Nat) (s rhs : Words w) : Outcome (Words w) :=
  zipLoop (· &&& ·) rhs (storageSize w N) 0 s

/-- `operator^=`, bitset.hpp:435-440 (`operator^` 122-125). -/
def xor {w : Nat} (N : Nat) (s rhs : Words w) : Outcome (Words w) :=
  zipLoop (· ^^^ ·) rhs (storageSize w N) 0 s

/-- `operator-`, bitset.hpp:127-130. -/
def sub {w : Nat} (N : Nat) (s rhs : Words w) : Outcome (Words w) := and N s (flipAll rhs)

/-- The loop of `operator~`, bitset.hpp:417-419. -/
def notLoop {w : Nat} (s : Words w) : Nat → Nat → Words w → Outcome (Words w)
  | 0, _, r => .ok r
  | k + 1, i, r => do
    let x ← arrGet s i
    let r ← arrSet r i (~~~x)
    notLoop s k (i + 1) r

/-- `operator~`, bitset.hpp:415-421. -/
def not {w : Nat} (N : Nat) (s : Words w) : Outcome (Words w) :=
  notLoop s (storageSize w N) 0 (List.replicate (storageSize w N) 0#w)

/-! ## Shifts -/

/-- `a - b` on `std::size_t` (bitset.hpp:445). -/
def szSub (a b : Nat) : Nat := if b ≤ a then a - b else a + 18446744073709551616 - b

/-- The left shift loops, bitset.hpp:448-461: `i` runs down to 0, writing at `dst`. -/
def shlLoop {w : Nat} (p : Nat) : Nat → Words w → Nat → Outcome (Words w × Nat)
  | 0, s, dst => .ok (s, dst)
  | i + 1, s, dst =>
    if p = 0 then do
      let e ← arrGet s (i + 1)
      let s ← arrSet s dst e
      shlLoop p i s (szDec dst)
    else do
      let e ← arrGet s (i + 1)
      let a ← cshl e p
      let s ← arrSet s dst a
      let d ← arrGet s i
      let b ← cshr d (w - p)
      let c ← arrGet s dst
      let s ← arrSet s dst (c ||| b)
      shlLoop p i s (szDec dst)

/-- `while (dst > 0) storage[--dst] = 0`, bitset.hpp:463-465. -/
def zeroDown {w : Nat} : Nat → Words w → Outcome (Words w)
  | 0, s => .ok s
  | d + 1, s => do
    let s ← arrSet s d 0#w
    zeroDown d s

/-- `operator<<=`, bitset.hpp:442-468 (`operator<<` 132-135). -/
def shl {w : Nat} (N : Nat) (s : Words w) (pos : Nat) : Outcome (Words w) :=
  if N = 0 then .ok s
  else do
    let dst := storageSize w N - 1
    let start := szSub dst (pos / w)
    let p := pos % w
    let (s, dst) ← shlLoop p start s dst
    let f ← arrGet s 0
    let v ← cshl f p
    let s ← arrSet s dst v
    zeroDown dst s

/-- The right shift loops, bitset.hpp:476-489: `k` iterations left from index `i`. -/
def shrLoop {w : Nat} (p : Nat) : Nat → Nat → Words w → Nat → Outcome (Words w × Nat)
  | 0, _, s, dst => .ok (s, dst)
  | k + 1, i, s, dst =>
    if p = 0 then do
      let e ← arrGet s i
      let s ← arrSet s dst e
      shrLoop p k (i + 1) s (dst + 1)
    else do
      let e ← arrGet s i
      let a ← cshr e p
      let s ← arrSet s dst a
      let d ← arrGet s (i + 1)
      let b ← cshl d (w - p)
      let c ← arrGet s dst
      let s ← arrSet s dst (c ||| b)
      shrLoop p k (i + 1) s (dst + 1)

/-- `while (dst < storage_size) storage[dst++] = 0`, bitset.hpp:491-493, with `k` iterations left.
-/
def zeroUp {w : Nat} : Nat → Nat → Words w → Outcome (Words w)
  | 0, _, s => .ok s
  | k + 1, d, s => do
    let s ← arrSet s d 0#w
    zeroUp k (d + 1) s

/-- `operator>>=`, bitset.hpp:470-496 (`operator>>` 136-139). -/
def shr {w : Nat} (N : Nat) (s : Words w) (pos : Nat) : Outcome (Words w) :=
  if N = 0 then .ok s
  else do
    let start := pos / w
    let p := pos % w
    let (s, dst) ← shrLoop p (storageSize w N - 1 - start) start s 0
    let e ← back s
    let v ← cshr e p
    let s ← arrSet s dst v
    zeroUp (storageSize w N - (dst + 1)) (dst + 1) s

/-! ## Constructors and conversions -/

/-- The default constructor: `storage{}`, bitset.hpp:78 and 184. -/
def empty (w N : Nat) : Words w := List.replicate (storageSize w N) 0#w

/-- The loop of `bitset(std::uint64_t)` for words other than `std::uint64_t`, bitset.hpp:189-195. -/
def u64Loop {w : Nat} : Words w → BitVec 64 → Outcome (Words w)
  | [], _ => .ok []
  | e :: es, v =>
    if v = 0#64 then .ok (e :: es)
    else do
      let v' ← cshr v w
      let r ← u64Loop es v'
      return (v.setWidth w) :: r

/-- `bitset(std::uint64_t)`, bitset.hpp:185-197.  A 64-bit word is taken to be `std::uint64_t`. -/
def ofU64 (w N : Nat) (v : BitVec 64) : Outcome (Words w) :=
  if w = 64 then arrSet (empty w N) 0 (v.setWidth w) else u64Loop (empty w N) v

/-- `bitset(place_bits, bs...)`, bitset.hpp:199-204. -/
def placeBits {w : Nat} : List Nat → Words w → Outcome (Words w)
  | [], s => .ok s
  | p :: ps, s => do
    let s ← set s p true
    placeBits ps s

/-- `bitset(all_bits)`, bitset.hpp:206-213. -/
def allBits (w N : Nat) : Outcome (Words w) := do
  let s := (empty w N).map fun _ => BitVec.allOnes w
  if N > 0 then do
    let e ← back s
    arrSet s (s.length - 1) (e &&& lastmask w N)
  else return s

/-- The loop of the string constructor, bitset.hpp:222-224, over the reversed characters. -/
def strLoop {w : Nat} (one : Char) : List Char → Nat → Words w → Outcome (Words w)
  | [], _, s => .ok s
  | c :: cs, i, s => do
    let s ← set s i (c == one)
    strLoop one cs (i + 1) s

/-- `bitset(str, pos, n, one)`, bitset.hpp:215-225.  `substr` throws when `pos > size()` (`panic`).
-/
def ofString (w N : Nat) (str : List Char) (pos n : Nat) (one : Char) : Outcome (Words w) :=
  if pos > str.length then .panic
  else
    let len := min n (str.length - pos)
    let sub := (str.drop pos).take (min len N)
    strLoop one sub.reverse 0 (empty w N)

/-- The loop of `to<T>()`, bitset.hpp:243-247, for a target of width `u`: `i` counts down from
`storage_size - 2`. -/
def toLoop {w : Nat} (u : Nat) (s : Words w) : Nat → BitVec u → Outcome (BitVec u)
  | 0, r => .ok r
  | i + 1, r => do
    let r ← cshl r w
    let e ← arrGet s i
    toLoop u s i (r ||| e.setWidth u)

/-- `to<T>()`, bitset.hpp:230-250, for `T` of width `u`: `none` when the `static_assert` or the
narrowing in `U result{highbits()}` rejects the program.  `sameType` says that the word type is
`U`.  Enumerations are represented by their underlying type. -/
def to {w : Nat} (N u : Nat) (sameType : Bool) (s : Words w) : Option (Outcome (BitVec u)) :=
  if u < N ∨ u < w then none
  else if N = 0 then some (.ok 0#u)
  else some (
    if sameType then do
      let e ← arrGet s 0
      return (e &&& lastmask w N).setWidth u
    else do
      let h ← highbits N s
      toLoop u s (storageSize w N - 1) (h.setWidth u))

/-- `to_natural()`, bitset.hpp:252-257: `to` for the smallest type that holds the capacity. -/
def toNatural {w : Nat} (N : Nat) (sameType : Bool) (s : Words w) :
    Option (Outcome (BitVec (BitMask.smallestUint N))) :=
  to N (BitMask.smallestUint N) sameType s

/-- `bitset(ct_string)`, bitset.hpp:227-228 with the deduction guide 522: the capacity is the length
of the string, `pos`, `n` and `one` have their default values. -/
def ofCtString (w : Nat) (str : List Char) : Outcome (Words w) :=
  ofString w str.length str 0 18446744073709551615 '1'

/-! ## Counting and traversal -/

/-- The loop of `count()`, bitset.hpp:382-384. -/
def countLoop {w : Nat} (s : Words w) : Nat → Nat → Nat → Outcome Nat
  | 0, _, n => .ok n
  | k + 1, i, n => do
    let e ← arrGet s i
    countLoop s k (i + 1) (n + popcount e)

/-- `count()`, bitset.hpp:377-386. -/
def count {w : Nat} (N : Nat) (s : Words w) : Outcome Nat :=
  if N = 0 then .ok 0
  else do
    let h ← highbits N s
    countLoop s (szDec (storageSize w N)) 0 (popcount h)

/-- `empty()` and `none()`, bitset.hpp:389-391, 401. -/
def isEmpty {w : Nat} (N : Nat) (s : Words w) : Outcome Bool := do
  let n ← count N s
  return n == 0

/-- `all()`, bitset.hpp:393-395. -/
def all {w : Nat} (N : Nat) (s : Words w) : Outcome Bool := do
  let n ← count N s
  return n == N

/-- `any()`, bitset.hpp:397-399. -/
def any {w : Nat} (N : Nat) (s : Words w) : Outcome Bool := do
  let n ← count N s
  return n != 0

/-- `set_bit::fn`, bitset.hpp:24-34.  `f` is the callback acting on a state; `fuel` bounds the
`while` loop, and running out of it stands for a loop that does not end. -/
def setBitLoop {w : Nat} {σ : Type} (f : σ → Nat → σ) (idx : Nat) :
    Nat → BitVec w → σ → Outcome σ
  | fuel, e, st =>
    if e = 0#w then .ok st
    else match fuel with
      | 0 => .ub
      | fuel + 1 => do
        let c ← countrZero e
        let b ← cshl 1#w c.toNat
        setBitLoop f idx fuel (e &&& ~~~b) (f st (idx + c.toNat))

/-- `unset_bit::fn`, bitset.hpp:35-45. -/
def unsetBitLoop {w : Nat} {σ : Type} (f : σ → Nat → σ) (mask : BitVec w) (idx : Nat) :
    Nat → BitVec w → σ → Outcome σ
  | fuel, e, st =>
    if e = mask then .ok st
    else match fuel with
      | 0 => .ub
      | fuel + 1 => do
        let c ← countrOne e
        let b ← cshl 1#w c.toNat
        unsetBitLoop f mask idx fuel (e ||| b) (f st (idx + c.toNat))

/-- `bit::fn`, bitset.hpp:46-55, with `k` iterations left from `i`. -/
def eachBitLoop {w : Nat} {σ : Type} (f : σ → Nat × Bool → σ) (e : BitVec w) (idx : Nat) :
    Nat → Nat → σ → Outcome σ
  | 0, _, st => .ok st
  | k + 1, i, st => do
    let b ← cshl 1#w i
    eachBitLoop f e idx k (i + 1) (f st (idx + i, (e &&& b) != 0#w))

/-- The three bit specifications as one function `Spec::fn<bit, size_t, Mask>(e, idx, f)`
(bitset.hpp:24-61). -/
inductive Spec where
  | setBit
  | unsetBit
  | bit
  deriving DecidableEq, Repr

/-- `Spec::fn` with the callback receiving the position and, for `bit`, the value (the other two
specifications pass the position only: the flag is then the constant `s = setBit`)
(bitset.hpp:24-55, 152-157). -/
def Spec.fn {w : Nat} {σ : Type} (sp : Spec) (mask e : BitVec w) (idx : Nat)
    (f : σ → Nat × Bool → σ) (st : σ) : Outcome σ :=
  match sp with
  | .setBit => setBitLoop (fun st i => f st (i, true)) idx w e st
  | .unsetBit => unsetBitLoop (fun st i => f st (i, false)) mask idx w e st
  | .bit => eachBitLoop f e idx (popcount mask) 0 st

/-- The loop of the member `for_each`, bitset.hpp:150-156. -/
def forEachLoop {w : Nat} {σ : Type} (sp : Spec) (f : σ → Nat × Bool → σ) (s : Words w) :
    Nat → Nat → Nat → σ → Outcome (Nat × σ)
  | 0, _, idx, st => .ok (idx, st)
  | k + 1, i, idx, st => do
    let e ← arrGet s i
    let st ← sp.fn (BitVec.allOnes w) e idx f st
    forEachLoop sp f s k (i + 1) (idx + w) st

/-- `for_each<Spec>(f, bs)`, bitset.hpp:499-507 with the member function 148-159. -/
def forEach {w : Nat} {σ : Type} (sp : Spec) (N : Nat) (f : σ → Nat × Bool → σ) (s : Words w)
    (st : σ) : Outcome σ := do
  let (idx, st) ← forEachLoop sp f s (szDec (storageSize w N)) 0 0 st
  let h ← highbits N s
  sp.fn (lastmask w N) h idx f st

/-- `transform_reduce(f, r, init, bs)`, bitset.hpp:509-520 with the member function 164-177; `i` is
the position of the first bit of the remaining words. -/
def transformReduceLoop {w : Nat} {τ ρ : Type} (f : Nat → τ) (r : ρ → τ → ρ) :
    Words w → Nat → ρ → Outcome ρ
  | [], _, acc => .ok acc
  | e :: es, i, acc => do
    let acc ← setBitLoop (fun a p => r a (f p)) i w e acc
    transformReduceLoop f r es (i + w) acc

/-- `transform_reduce(f, r, init, bs)`, bitset.hpp:164-177. -/
def transformReduce {w : Nat} {τ ρ : Type} (f : Nat → τ) (r : ρ → τ → ρ) (init : ρ) (s : Words w) :
    Outcome ρ := transformReduceLoop f r s 0 init

/-- `lowest_unset()`, bitset.hpp:403-413, from position `i`. -/
def lowestUnsetLoop {w : Nat} : Words w → Nat → Outcome Nat
  | [], i => .ok i
  | e :: es, i => do
    let c ← countrOne e
    if c.toNat ≠ w then return i + c.toNat else lowestUnsetLoop es (i + w)

/-- `lowest_unset()`, bitset.hpp:403-413. -/
def lowestUnset {w : Nat} (s : Words w) : Outcome Nat := lowestUnsetLoop s 0

end Verif.Bitset
