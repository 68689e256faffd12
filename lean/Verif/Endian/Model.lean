import Verif.Word

/-!
# Model of byte order functions, `bit_pack` and `bit_unpack`
(/repo/include/stdx/bit.hpp:23-61, 242-338)

A type of `n` bytes is `BitVec (8 * n)`.  `Endian` is the byte order of the platform: the same
source compiled for either.
-/

namespace Verif.Endian

/-- `stdx::endian::native`, bit.hpp:24-33. -/
inductive Endian where
  | little
  | big
  deriving DecidableEq, Repr

/-- Byte `k` of a word, counted from the least significant (used for bit.hpp:52-57, 332). -/
def byteAt {w : Nat} (x : BitVec w) (k : Nat) : BitVec 8 := (x >>> (8 * k)).setWidth 8

/-- The bytes of a word from least to most significant (used for bit.hpp:52-57, 332). -/
def bytesLE (n : Nat) (x : BitVec (8 * n)) : List (BitVec 8) := (List.range n).map (byteAt x)

/-- The number whose base-256 digits from least to most significant are given (used for
bit.hpp:52-57, 332). -/
def natLE : List (BitVec 8) → Nat
  | [] => 0
  | b :: bs => b.toNat + 256 * natLE bs

/-- The word with the given bytes, least significant first (used for bit.hpp:52-57, 332). -/
def ofBytesLE (n : Nat) (l : List (BitVec 8)) : BitVec (8 * n) := BitVec.ofNat (8 * n) (natLE l)

/-- The object representation of an unsigned integer in memory, in address order (used for
bit.hpp:332). -/
def mem (e : Endian) (n : Nat) (x : BitVec (8 * n)) : List (BitVec 8) :=
  match e with
  | .little => bytesLE n x
  | .big => (bytesLE n x).reverse

/-- Reading an unsigned integer from its object representation (used for bit.hpp:332). -/
def ofMem (e : Endian) (n : Nat) (l : List (BitVec 8)) : BitVec (8 * n) :=
  match e with
  | .little => ofBytesLE n l
  | .big => ofBytesLE n l.reverse

/-- `__builtin_bswap16/32/64` (compiler builtin: reverses the bytes) (bit.hpp:53, 55, 57). -/
def bswap (n : Nat) (x : BitVec (8 * n)) : BitVec (8 * n) := ofBytesLE n (bytesLE n x).reverse

/-- `byteswap`, bit.hpp:48-64. -/
def byteswap (n : Nat) (x : BitVec (8 * n)) : BitVec (8 * n) :=
  if n = 2 then bswap n x
  else if n = 4 then bswap n x
  else if n = 8 then bswap n x
  else x

/-- `to_le`, bit.hpp:242-249. -/
def toLe (e : Endian) (n : Nat) (x : BitVec (8 * n)) : BitVec (8 * n) :=
  if e = .big then byteswap n x else x

/-- `to_be`, bit.hpp:251-258. -/
def toBe (e : Endian) (n : Nat) (x : BitVec (8 * n)) : BitVec (8 * n) :=
  if e = .little then byteswap n x else x

/-- `from_le`, bit.hpp:260-267. -/
def fromLe (e : Endian) (n : Nat) (x : BitVec (8 * n)) : BitVec (8 * n) :=
  if e = .big then byteswap n x else x

/-- `from_be`, bit.hpp:269-276. -/
def fromBe (e : Endian) (n : Nat) (x : BitVec (8 * n)) : BitVec (8 * n) :=
  if e = .little then byteswap n x else x

/-- `bit_pack<std::uint16_t>(hi, lo)`, bit.hpp:284-289. -/
def pack16of8 (hi lo : BitVec 8) : BitVec 16 :=
  ((hi.setWidth 32 <<< 8) ||| lo.setWidth 32).setWidth 16

/-- `bit_pack<std::uint32_t>(hi, lo)`, bit.hpp:293-295. -/
def pack32of16 (hi lo : BitVec 16) : BitVec 32 := (hi.setWidth 32 <<< 16) ||| lo.setWidth 32

/-- `bit_pack<std::uint32_t>(b0, b1, b2, b3)`, bit.hpp:296-301. -/
def pack32of8 (b0 b1 b2 b3 : BitVec 8) : BitVec 32 :=
  (b0.setWidth 32 <<< 24) ||| (b1.setWidth 32 <<< 16) ||| (b2.setWidth 32 <<< 8) ||| b3.setWidth 32

/-- `bit_pack<std::uint64_t>(hi, lo)`, bit.hpp:305-307. -/
def pack64of32 (hi lo : BitVec 32) : BitVec 64 := (hi.setWidth 64 <<< 32) ||| lo.setWidth 64

/-- `bit_pack<std::uint64_t>(w0, w1, w2, w3)`, bit.hpp:308-313. -/
def pack64of16 (w0 w1 w2 w3 : BitVec 16) : BitVec 64 :=
  (w0.setWidth 64 <<< 48) ||| (w1.setWidth 64 <<< 32) ||| (w2.setWidth 64 <<< 16) ||| w3.setWidth 64

/-- `bit_pack<std::uint64_t>(b0, …, b7)`, bit.hpp:314-324. -/
def pack64of8 (b0 b1 b2 b3 b4 b5 b6 b7 : BitVec 8) : BitVec 64 :=
  (b0.setWidth 64 <<< 56) ||| (b1.setWidth 64 <<< 48) ||| (b2.setWidth 64 <<< 40) |||
  (b3.setWidth 64 <<< 32) ||| (b4.setWidth 64 <<< 24) ||| (b5.setWidth 64 <<< 16) |||
  (b6.setWidth 64 <<< 8) ||| b7.setWidth 64

/-- `bit_cast<std::array<To, k>>` of a word of `k * m` bytes into words of `m` bytes: the object
representation is kept (bit.hpp:332). -/
def bitCastArray (e : Endian) (m k : Nat) (x : BitVec (8 * (k * m))) : List (BitVec (8 * m)) :=
  (List.range k).map (fun i => ofMem e m (((mem e (k * m) x).drop (i * m)).take m))

/-- `bit_unpack<To>(arg)`, bit.hpp:326-338, with `sizeof(To) = m` and `sizeof(From) = k * m`. -/
def unpack (e : Endian) (m k : Nat) (arg : BitVec (8 * (k * m))) : List (BitVec (8 * m)) :=
  (bitCastArray e m k (toBe e (k * m) arg)).map (fromBe e m)

end Verif.Endian
