import Verif.Atomic.Props
import Mathlib.Tactic.Linarith
import Mathlib.Tactic.Ring

/-!
# `stdx::atomic` within the range of its type (C40)
-/

namespace Verif.Atomic

open Verif.Conc

/-! ## Specification -/

/-- The number that bits stand for in a signed or an unsigned type. -/
def number (signed : Bool) {n : Nat} (x : BitVec n) : Int := if signed then x.toInt else x.toNat

/-- Whether a number is a value of a signed or an unsigned type of `n` bits. -/
def valueOf (signed : Bool) (n : Nat) (x : Int) : Prop :=
  if signed then -2 ^ (n - 1) ≤ x ∧ x < 2 ^ (n - 1) else 0 ≤ x ∧ x < 2 ^ n

/-- Adding or subtracting numbers, an operation on an object of value `c` stays in the range of its type. -/
def Op.InRange {w : Nat} (signed : Bool) (c : BitVec w) : Op w → Prop
  | .fetchAdd v | .addAssign v => valueOf signed w (number signed c + number signed v)
  | .fetchSub v | .subAssign v => valueOf signed w (number signed c - number signed v)
  | .preInc | .postInc => valueOf signed w (number signed c + 1)
  | .preDec | .postDec => valueOf signed w (number signed c - 1)
  | _ => True

/-- The storage type holds every value of `T`. -/
def Cfg.Holds (C : Cfg) : Prop :=
  C.w ≤ C.e ∧ (C.tSigned = C.eSigned ∨ C.tSigned = false ∧ C.w < C.e)

/-! ## Lemmas -/

theorem number_range (sg : Bool) {n : Nat} (x : BitVec n) : valueOf sg n (number sg x) := by
  unfold valueOf number
  cases sg
  · simp only [Bool.false_eq_true, if_false]
    have := x.isLt
    constructor
    · omega
    · exact_mod_cast this
  · simp only [if_true]
    exact ⟨x.le_toInt, x.toInt_lt⟩

theorem number_inj {sg : Bool} {n : Nat} {x y : BitVec n} (h : number sg x = number sg y) : x = y := by
  unfold number at h
  cases sg
  · simp only [Bool.false_eq_true, if_false] at h
    exact BitVec.eq_of_toNat_eq (by exact_mod_cast h)
  · simp only [if_true] at h
    exact BitVec.eq_of_toInt_eq h

/-- Bits standing for a number modulo `2^n` stand for it if it is in range. -/
theorem number_of_mod {sg : Bool} {n : Nat} {x : BitVec n} {a : Int} (hn : 0 < n)
    (h : ∃ k : Int, (x.toNat : Int) = a + k * 2 ^ n) (hr : valueOf sg n a) : number sg x = a := by
  obtain ⟨k, h⟩ := h
  have hp : (2 : Int) ^ n = 2 * 2 ^ (n - 1) := by
    obtain ⟨m, rfl⟩ : ∃ m, n = m + 1 := ⟨n - 1, by omega⟩
    rw [Nat.add_sub_cancel, Int.pow_succ]; omega
  have hlt : (x.toNat : Int) < 2 ^ n := by exact_mod_cast x.isLt
  have hpos : (0 : Int) < 2 ^ (n - 1) := Int.pow_pos (by omega)
  have hq := number_range sg x
  have : ∃ j : Int, number sg x = a + j * 2 ^ n := by
    unfold number
    cases sg
    · exact ⟨k, by simpa using h⟩
    · simp only [if_true]
      rw [BitVec.toInt_eq_toNat_cond]
      split
      · exact ⟨k, h⟩
      · exact ⟨k - 1, by push_cast; rw [h]; ring⟩
  obtain ⟨j, hj⟩ := this
  unfold valueOf at hr hq
  rw [hj] at hq ⊢
  rw [hp] at hq ⊢
  have : j = 0 := by
    cases sg
    · simp only [Bool.false_eq_true, if_false] at hr hq
      rw [hp] at hr
      generalize (2 : Int) ^ (n - 1) = P at *
      rcases lt_trichotomy j 0 with h | h | h
      · nlinarith
      · exact h
      · nlinarith
    · simp only [if_true] at hr hq
      generalize (2 : Int) ^ (n - 1) = P at *
      rcases lt_trichotomy j 0 with h | h | h
      · nlinarith
      · exact h
      · nlinarith
  rw [this]; ring

theorem toNat_number (sg : Bool) {n : Nat} (x : BitVec n) : ∃ k : Int, (x.toNat : Int) = number sg x + k * 2 ^ n := by
  unfold number
  cases sg
  · exact ⟨0, by simp⟩
  · simp only [if_true]
    rw [BitVec.toInt_eq_toNat_cond]
    split
    · exact ⟨0, by simp⟩
    · exact ⟨1, by push_cast; ring⟩

theorem mod_ex (a m : Int) : ∃ k : Int, a % m = a + k * m :=
  ⟨-(a / m), by have := Int.emod_add_mul_ediv a m; linarith [mul_comm m (a / m)]⟩

theorem number_add {sg : Bool} {n : Nat} (hn : 0 < n) (x y : BitVec n)
    (h : valueOf sg n (number sg x + number sg y)) : number sg (x + y) = number sg x + number sg y := by
  apply number_of_mod hn _ h
  obtain ⟨k, hk⟩ := toNat_number sg x
  obtain ⟨l, hl⟩ := toNat_number sg y
  obtain ⟨j, hj⟩ := mod_ex ((x.toNat : Int) + y.toNat) (2 ^ n)
  refine ⟨k + l + j, ?_⟩
  rw [BitVec.toNat_add]
  push_cast
  rw [hj, hk, hl]
  ring

theorem number_sub {sg : Bool} {n : Nat} (hn : 0 < n) (x y : BitVec n)
    (h : valueOf sg n (number sg x - number sg y)) : number sg (x - y) = number sg x - number sg y := by
  apply number_of_mod hn _ h
  obtain ⟨k, hk⟩ := toNat_number sg x
  obtain ⟨l, hl⟩ := toNat_number sg y
  obtain ⟨j, hj⟩ := mod_ex ((2 ^ n : Int) - y.toNat + x.toNat) (2 ^ n)
  refine ⟨k - l + j + 1, ?_⟩
  rw [BitVec.toNat_sub]
  have := y.isLt
  have e : ((2 ^ n - y.toNat : Nat) : Int) = 2 ^ n - y.toNat := by push_cast [Nat.cast_sub (le_of_lt this)]; rfl
  push_cast [e]
  rw [hj, hk, hl]
  ring

theorem valueOf_mono {C : Cfg} (h : C.Holds) {a : Int} (ha : valueOf C.tSigned C.w a) : valueOf C.eSigned C.e a := by
  obtain ⟨hwe, hs⟩ := h
  have h1 : (2 : Int) ^ (C.w - 1) ≤ 2 ^ (C.e - 1) := by exact_mod_cast Nat.pow_le_pow_right (by omega) (by omega)
  have h2 : (2 : Int) ^ C.w ≤ 2 ^ C.e := by exact_mod_cast Nat.pow_le_pow_right (by omega) hwe
  unfold valueOf at *
  rcases hs with hs | ⟨hs, hlt⟩
  · rw [hs] at ha
    cases h : C.eSigned <;> simp only [h, Bool.false_eq_true, if_false, if_true] at * <;> constructor <;> omega
  · have h3 : (2 : Int) ^ C.w ≤ 2 ^ (C.e - 1) := by exact_mod_cast Nat.pow_le_pow_right (by omega) (by omega)
    have h4 : (0 : Int) < 2 ^ (C.e - 1) := Int.pow_pos (by omega)
    rw [hs] at ha
    cases h : C.eSigned <;> simp only [h, Bool.false_eq_true, if_false, if_true] at * <;> constructor <;> omega

theorem number_widen {C : Cfg} (h : C.Holds) (hw : 0 < C.w) (v : BitVec C.w) :
    number C.eSigned (widen C v) = number C.tSigned v := by
  apply number_of_mod (by have := h.1; omega) _ (valueOf_mono h (number_range _ v))
  unfold widen number
  cases ht : C.tSigned
  · simp only [Bool.false_eq_true, if_false]
    refine ⟨0, ?_⟩
    rw [BitVec.toNat_setWidth_of_le h.1]; simp
  · simp only [if_true]
    obtain ⟨k, hk⟩ := toNat_number true (v.signExtend C.e)
    refine ⟨k, ?_⟩
    rw [hk]
    simp only [number, if_true]
    rw [BitVec.toInt_signExtend_of_le h.1]

theorem number_one (sg : Bool) {n : Nat} (hn : 1 < n) : number sg (1#n) = 1 := by
  unfold number
  cases sg
  · simp only [Bool.false_eq_true, if_false, BitVec.toNat_ofNat]
    rw [Nat.mod_eq_of_lt (Nat.one_lt_two_pow (by omega))]; rfl
  · simp only [if_true]
    exact BitVec.toInt_one hn

theorem widen_one {C : Cfg} (h : C.Holds) (hw : 1 < C.w) : widen C 1#C.w = 1#C.e :=
  number_inj (sg := C.eSigned) (by
    rw [number_widen h (by omega), number_one _ hw, number_one _ (by have := h.1; omega)])

theorem widen_add {C : Cfg} (h : C.Holds) (hw : 0 < C.w) (a b : BitVec C.w)
    (hr : valueOf C.tSigned C.w (number C.tSigned a + number C.tSigned b)) :
    widen C a + widen C b = widen C (a + b) := by
  apply number_inj (sg := C.eSigned)
  rw [number_widen h hw, number_add hw a b hr, number_add (by have := h.1; omega), number_widen h hw, number_widen h hw]
  rw [number_widen h hw, number_widen h hw]
  exact valueOf_mono h hr

theorem widen_sub {C : Cfg} (h : C.Holds) (hw : 0 < C.w) (a b : BitVec C.w)
    (hr : valueOf C.tSigned C.w (number C.tSigned a - number C.tSigned b)) :
    widen C a - widen C b = widen C (a - b) := by
  apply number_inj (sg := C.eSigned)
  rw [number_widen h hw, number_sub hw a b hr, number_sub (by have := h.1; omega), number_widen h hw, number_widen h hw]
  rw [number_widen h hw, number_widen h hw]
  exact valueOf_mono h hr

theorem upd_widen {C : Cfg} (h : C.Holds) (hw : 1 < C.w) (op : Op C.w) (v : BitVec C.w)
    (hr : op.InRange C.tSigned v) : upd C op (widen C v) = widen C (op.after v) := by
  have hw0 : 0 < C.w := by omega
  cases op with
  | load | store | assign | exchange => rfl
  | fetchAdd d | addAssign d => exact widen_add h hw0 v d hr
  | fetchSub d | subAssign d => exact widen_sub h hw0 v d hr
  | preInc | postInc =>
    simp only [upd, Op.after]
    rw [← widen_one h hw]
    exact widen_add h hw0 v _ (by rw [number_one _ hw]; exact hr)
  | preDec | postDec =>
    simp only [upd, Op.after]
    rw [← widen_one h hw]
    exact widen_sub h hw0 v _ (by rw [number_one _ hw]; exact hr)
  | fetchAnd | andAssign => simp only [upd, Op.after, widen]; split <;> simp
  | fetchOr | orAssign => simp only [upd, Op.after, widen]; split <;> simp
  | fetchXor | xorAssign => simp only [upd, Op.after, widen]; split <;> simp

theorem not_overflows_in_range {C : Cfg} (h : C.Holds) (hw : 1 < C.w) (op : Op C.w) (v : BitVec C.w)
    (hr : op.InRange C.tSigned v) : ¬ op.overflows C (widen C v) := by
  have hn : (widen C v).setWidth C.w = v := narrow_widen h.1 v
  have hnum := number_widen h (by omega) v
  cases op with
  | addAssign d =>
    rintro ⟨h1, -, h3⟩
    apply h3
    simp only [Op.InRange, h1, valueOf, number, if_true] at hr
    rw [hn]; exact hr
  | subAssign d =>
    rintro ⟨h1, -, h3⟩
    apply h3
    simp only [Op.InRange, h1, valueOf, number, if_true] at hr
    rw [hn]; exact hr
  | preInc =>
    rintro ⟨h1, -, h3⟩
    apply h3
    have := valueOf_mono h hr
    rw [← hnum] at this
    simp only [h1, valueOf, number, if_true] at this
    exact this
  | preDec =>
    rintro ⟨h1, -, h3⟩
    apply h3
    have := valueOf_mono h hr
    rw [← hnum] at this
    simp only [h1, valueOf, number, if_true] at this
    exact this
  | _ => exact fun h => h

/-! ## Theorems -/

/-- **C40, the number stored.** An object constructed from a value holds the same number in its storage type, if that type holds all
the values of `T`. -/
theorem C40_atomic_stored_number (C : Cfg) (h : C.Holds) (hw : 1 < C.w) (v : BitVec C.w) :
    number C.eSigned (init C v) = number C.tSigned v := number_widen h (by omega) v

/-- **C40, in range.** While the numbers stay in the range of `T`, no operation is undefined, signed types included: performed on an
object that stores the number of `v`, it returns what it should and leaves the number it should. -/
theorem C40_atomic_in_range (C : Cfg) (h : C.Holds) (hw : 1 < C.w) (op : Op C.w) (v : BitVec C.w) (c : BitVec C.e)
    (hc : number C.eSigned c = number C.tSigned v) (hr : op.InRange C.tSigned v) :
    ∃ s, (start (impl C) [[op]] c).run [0] = some s ∧ s.threads = [.ret [op.returns v]] ∧
      number C.eSigned s.cell = number C.tSigned (op.after v) := by
  have e : c = widen C v := number_inj (sg := C.eSigned) (by rw [hc, number_widen h (by omega)])
  subst e
  have hn : (widen C v).setWidth C.w = v := narrow_widen h.1 v
  obtain ⟨s, h1, h2, -, h4⟩ := C40_atomic_undefined_exactly C h.1 op (widen C v)
  have h5 := h4 (not_overflows_in_range h hw op v hr)
  rw [hn] at h5
  refine ⟨s, h1, h5, ?_⟩
  have hcell : s.cell = upd C op (widen C v) := by
    simp only [start, List.map_cons, List.map_nil, threadProg, impl_single h.1 op, Prog.bind, Sys.run, Sys.step,
      List.getElem?_cons_zero, List.set_cons_zero, Option.some.injEq] at h1
    rw [← h1]
  rw [hcell, upd_widen h hw op v hr, number_widen h (by omega)]

/-- A `signed char` stored in an `int`: decrementing -127 gives -128. -/
example : ∃ s, (start (impl ⟨8, 32, true, true⟩) [[.preDec]] (init ⟨8, 32, true, true⟩ (-127#8))).run [0] = some s ∧
    s.threads = [.ret [some (-128#8)]] ∧ number true s.cell = -128 := by
  obtain ⟨s, h1, h2, h3⟩ := C40_atomic_in_range ⟨8, 32, true, true⟩ ⟨by decide, .inl rfl⟩ (by decide) .preDec (-127#8)
    (init ⟨8, 32, true, true⟩ (-127#8)) (C40_atomic_stored_number _ ⟨by decide, .inl rfl⟩ (by decide) _)
    (by simp only [Op.InRange, valueOf, number]; decide)
  exact ⟨s, h1, h2.trans (by congr 1), h3.trans (by decide)⟩

end Verif.Atomic
