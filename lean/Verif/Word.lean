import Verif.Base

/-!
# C++ unsigned words

An unsigned integer type of width `w` is `BitVec w`.  Operands narrower than `int` are promoted to
the 32-bit `int` before a shift, so a shift is undefined exactly when the amount is negative or at
least `max w 32`; the result below is the value after conversion back to `w` bits.  (`int` has 32
bits and there is no type of width strictly between 32 and 64, as on the supported platforms.)
-/

namespace Verif

/-- `static_cast<T>(x << s)` for an unsigned `T` of width `w`. -/
def cshl {w : Nat} (x : BitVec w) (s : Nat) : Outcome (BitVec w) :=
  if s < max w 32 then .ok (x <<< s) else .ub

/-- `static_cast<T>(x >> s)` for an unsigned `T` of width `w`. -/
def cshr {w : Nat} (x : BitVec w) (s : Nat) : Outcome (BitVec w) :=
  if s < max w 32 then .ok (x >>> s) else .ub

theorem cshl_ok {w : Nat} {x : BitVec w} {s : Nat} (h : s < w) : cshl x s = .ok (x <<< s) :=
  if_pos (by omega)

theorem cshr_ok {w : Nat} {x : BitVec w} {s : Nat} (h : s < w) : cshr x s = .ok (x >>> s) :=
  if_pos (by omega)

theorem getLsbD_low_mask {w k i : Nat} (hk : k < w) :
    ((1#w <<< k) - 1#w).getLsbD i = decide (i < k) := by
  have h1 : ((1#w <<< k) - 1#w).toNat = 2 ^ k - 1 := by
    have hw : 2 ^ k < 2 ^ w := Nat.pow_lt_pow_right (by omega) hk
    have h2 : 1 < 2 ^ w := Nat.one_lt_two_pow (by omega)
    have hp : 0 < 2 ^ k := Nat.two_pow_pos k
    have e1 : (1#w <<< k).toNat = 2 ^ k := by
      rw [BitVec.toNat_shiftLeft, BitVec.toNat_ofNat, Nat.mod_eq_of_lt h2, Nat.shiftLeft_eq,
        Nat.one_mul, Nat.mod_eq_of_lt hw]
    rw [BitVec.toNat_sub_of_le (by
      rw [BitVec.le_def, e1, BitVec.toNat_ofNat, Nat.mod_eq_of_lt h2]; omega), e1,
      BitVec.toNat_ofNat, Nat.mod_eq_of_lt h2]
  rw [BitVec.getLsbD, h1, Nat.testBit_two_pow_sub_one]

end Verif
