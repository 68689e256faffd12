import Verif.Bitset.Model

/-!
# Histories of bitsets, and the sets they denote

An `Expr` is a bitset value together with the whole history that produced it: a constructor, then
any finite number of operations, whose operands have histories of their own.  (The library's
mutating operators are applied to a variable; a variable's history is the expression.)
-/

namespace Verif.Bitset

inductive Expr where
  /-- `bitset<N>{}` -/
  | empty
  /-- `bitset<N>{v}` -/
  | ofU64 (v : BitVec 64)
  /-- `bitset<N>{place_bits, ps...}` -/
  | place (ps : List Nat)
  /-- `bitset<N>{all_bits}` -/
  | allBits
  /-- `bitset<N>{str, pos, n, one}` -/
  | ofString (str : List Char) (pos n : Nat) (one : Char)
  | set (a : Expr) (i : Nat) (v : Bool)
  | setRange (a : Expr) (l m : Nat) (v : Bool)
  | setLen (a : Expr) (l len : Nat) (v : Bool)
  | setAll (a : Expr)
  | reset (a : Expr) (i : Nat)
  | resetRange (a : Expr) (l m : Nat)
  | resetLen (a : Expr) (l len : Nat)
  | resetAll (a : Expr)
  | flip (a : Expr) (i : Nat)
  | flipAll (a : Expr)
  | or (a b : Expr)
  | and (a b : Expr)
  | xor (a b : Expr)
  | sub (a b : Expr)
  | not (a : Expr)
  | shl (a : Expr) (n : Nat)
  | shr (a : Expr) (n : Nat)

/-- Running a history with the model of the code. -/
def Expr.run (w N : Nat) : Expr → Outcome (Words w)
  | .empty => .ok (Bitset.empty w N)
  | .ofU64 v => Bitset.ofU64 w N v
  | .place ps => Bitset.placeBits ps (Bitset.empty w N)
  | .allBits => Bitset.allBits w N
  | .ofString str pos n one => Bitset.ofString w N str pos n one
  | .set a i v => do let s ← a.run w N; Bitset.set s i v
  | .setRange a l m v => do let s ← a.run w N; Bitset.setRange s l m v
  | .setLen a l len v => do let s ← a.run w N; Bitset.setLen s l len v
  | .setAll a => do let s ← a.run w N; return Bitset.setAll s
  | .reset a i => do let s ← a.run w N; Bitset.reset s i
  | .resetRange a l m => do let s ← a.run w N; Bitset.resetRange s l m
  | .resetLen a l len => do let s ← a.run w N; Bitset.resetLen s l len
  | .resetAll a => do let s ← a.run w N; return Bitset.resetAll s
  | .flip a i => do let s ← a.run w N; Bitset.flip s i
  | .flipAll a => do let s ← a.run w N; return Bitset.flipAll s
  | .or a b => do let s ← a.run w N; let t ← b.run w N; Bitset.or N s t
  | .and a b => do let s ← a.run w N; let t ← b.run w N; Bitset.and N s t
  | .xor a b => do let s ← a.run w N; let t ← b.run w N; Bitset.xor N s t
  | .sub a b => do let s ← a.run w N; let t ← b.run w N; Bitset.sub N s t
  | .not a => do let s ← a.run w N; Bitset.not N s
  | .shl a n => do let s ← a.run w N; Bitset.shl N s n
  | .shr a n => do let s ← a.run w N; Bitset.shr N s n

/-- Membership of `i` in the subset of `{0, ..., N-1}` that a history denotes. -/
def Expr.mem (N : Nat) : Expr → Nat → Bool
  | .empty, _ => false
  | .ofU64 v, i => v.getLsbD i
  | .place ps, i => ps.contains i
  | .allBits, _ => true
  | .ofString str pos n one, i => (((str.drop pos).take n).take N).reverse[i]? == some one
  | .set a j v, i => if i = j then v else a.mem N i
  | .setRange a l m v, i => if l ≤ i ∧ i ≤ m then v else a.mem N i
  | .setLen a l len v, i => if l ≤ i ∧ i < l + len then v else a.mem N i
  | .setAll _, _ => true
  | .reset a j, i => i ≠ j && a.mem N i
  | .resetRange a l m, i => !(l ≤ i && i ≤ m) && a.mem N i
  | .resetLen a l len, i => !(l ≤ i && i < l + len) && a.mem N i
  | .resetAll _, _ => false
  | .flip a j, i => a.mem N i != (i == j)
  | .flipAll a, i => !(a.mem N i)
  | .or a b, i => a.mem N i || b.mem N i
  | .and a b, i => a.mem N i && b.mem N i
  | .xor a b, i => a.mem N i != b.mem N i
  | .sub a b, i => a.mem N i && !(b.mem N i)
  | .not a, i => !(a.mem N i)
  | .shl a n, i => n ≤ i && a.mem N (i - n)
  | .shr a n, i => i + n < N && a.mem N (i + n)

/-- All arguments are in range: positions below `N`, ranges inside `{0, ..., N-1}` (non-empty, with
32-bit arguments), substring start inside the string.  A shift distance is below the number of
stored bits, that is, below `N` rounded up to whole words (any distance for `N = 0`). -/
def Expr.Valid (w N : Nat) : Expr → Prop
  | .empty => True
  | .ofU64 _ => N ≠ 0 ∨ w ≠ 64
  | .place ps => ∀ p ∈ ps, p < N
  | .allBits => True
  | .ofString str pos _ _ => pos ≤ str.length
  | .set a i _ => a.Valid w N ∧ i < N
  | .setRange a l m _ => a.Valid w N ∧ l ≤ m ∧ m < N
  | .setLen a l len _ => a.Valid w N ∧ 0 < len ∧ l + len ≤ N ∧ l + len ≤ 4294967296
  | .setAll a => a.Valid w N
  | .reset a i => a.Valid w N ∧ i < N
  | .resetRange a l m => a.Valid w N ∧ l ≤ m ∧ m < N
  | .resetLen a l len => a.Valid w N ∧ 0 < len ∧ l + len ≤ N ∧ l + len ≤ 4294967296
  | .resetAll a => a.Valid w N
  | .flip a i => a.Valid w N ∧ i < N
  | .flipAll a => a.Valid w N
  | .or a b => a.Valid w N ∧ b.Valid w N
  | .and a b => a.Valid w N ∧ b.Valid w N
  | .xor a b => a.Valid w N ∧ b.Valid w N
  | .sub a b => a.Valid w N ∧ b.Valid w N
  | .not a => a.Valid w N
  | .shl a n => a.Valid w N ∧ (N = 0 ∨ n < (N + w - 1) / w * w)
  | .shr a n => a.Valid w N ∧ (N = 0 ∨ n < (N + w - 1) / w * w)

/-- What the storage holds at every stored position, including those at or above `N`: as `mem`, but
with the universe `{0, ..., M-1}` where `M` is `N` rounded up to whole words, except that
`bitset(all_bits)` keeps to `N`. -/
def Expr.stored (w N : Nat) : Expr → Nat → Bool
  | .empty, _ => false
  | .ofU64 v, i => v.getLsbD i
  | .place ps, i => ps.contains i
  | .allBits, i => i < N
  | .ofString str pos n one, i => (((str.drop pos).take n).take N).reverse[i]? == some one
  | .set a j v, i => if i = j then v else a.stored w N i
  | .setRange a l m v, i => if l ≤ i ∧ i ≤ m then v else a.stored w N i
  | .setLen a l len v, i => if l ≤ i ∧ i < l + len then v else a.stored w N i
  | .setAll _, _ => true
  | .reset a j, i => i ≠ j && a.stored w N i
  | .resetRange a l m, i => !(l ≤ i && i ≤ m) && a.stored w N i
  | .resetLen a l len, i => !(l ≤ i && i < l + len) && a.stored w N i
  | .resetAll _, _ => false
  | .flip a j, i => a.stored w N i != (i == j)
  | .flipAll a, i => !(a.stored w N i)
  | .or a b, i => a.stored w N i || b.stored w N i
  | .and a b, i => a.stored w N i && b.stored w N i
  | .xor a b, i => a.stored w N i != b.stored w N i
  | .sub a b, i => a.stored w N i && !(b.stored w N i)
  | .not a, i => !(a.stored w N i)
  | .shl a n, i => n ≤ i && a.stored w N (i - n)
  | .shr a n, i => i + n < (N + w - 1) / w * w && a.stored w N (i + n)

/-- A syntactic condition under which nothing is stored at or above `N`. -/
def Expr.tidy (w N : Nat) : Expr → Bool
  | .empty => true
  | .ofU64 v => v.toNat < 2 ^ N
  | .place _ => true
  | .allBits => true
  | .ofString .. => true
  | .set a _ _ | .setRange a _ _ _ | .setLen a _ _ _ | .reset a _ | .resetRange a _ _
  | .resetLen a _ _ | .flip a _ => a.tidy w N
  | .setAll _ => N % w == 0
  | .resetAll _ => true
  | .flipAll _ => N % w == 0
  | .or a b | .xor a b => a.tidy w N && b.tidy w N
  | .and a b => a.tidy w N || b.tidy w N
  | .sub a _ => a.tidy w N
  | .not _ => N % w == 0
  | .shl a n => N % w == 0 || (n == 0 && a.tidy w N)
  | .shr a _ => a.tidy w N

/-- In every right shift of the history the operand is tidy. -/
def Expr.ShiftsTidy (w N : Nat) : Expr → Prop
  | .empty | .ofU64 _ | .place _ | .allBits | .ofString .. => True
  | .set a _ _ | .setRange a _ _ _ | .setLen a _ _ _ | .reset a _ | .resetRange a _ _
  | .resetLen a _ _ | .flip a _ | .setAll a | .resetAll a | .flipAll a | .not a | .shl a _ =>
    a.ShiftsTidy w N
  | .or a b | .and a b | .xor a b | .sub a b => a.ShiftsTidy w N ∧ b.ShiftsTidy w N
  | .shr a _ => a.ShiftsTidy w N ∧ a.tidy w N = true

/-- In every right shift by `n`, no position in `[N, N + n)` is stored: the bits that move below `N`
are clear. -/
def Expr.NoJunkShift (w N : Nat) : Expr → Prop
  | .empty | .ofU64 _ | .place _ | .allBits | .ofString .. => True
  | .set a _ _ | .setRange a _ _ _ | .setLen a _ _ _ | .reset a _ | .resetRange a _ _
  | .resetLen a _ _ | .flip a _ | .setAll a | .resetAll a | .flipAll a | .not a | .shl a _ =>
    a.NoJunkShift w N
  | .or a b | .and a b | .xor a b | .sub a b => a.NoJunkShift w N ∧ b.NoJunkShift w N
  | .shr a n => a.NoJunkShift w N ∧
      ∀ j, N ≤ j → j < N + n → j < (N + w - 1) / w * w → a.stored w N j = false

end Verif.Bitset
