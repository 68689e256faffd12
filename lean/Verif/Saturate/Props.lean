import Verif.Saturate.Model
import Mathlib.Tactic.NormNum
import Mathlib.Tactic.Ring

/-!
# `saturate_cast` (C51)
-/

namespace Verif.Saturate

/-- A value of the type. -/
def ITy.Rep (t : ITy) (v : Int) : Prop := t.min ≤ v ∧ v ≤ t.max

/-- `r` is the value of the type nearest to `v`. -/
def Nearest (t : ITy) (v r : Int) : Prop := t.Rep r ∧ ∀ x, t.Rep x → (r - v).natAbs ≤ (x - v).natAbs

theorem pow_half {n : Nat} (h : 0 < n) : (2 : Int) ^ (8 * n) = 2 * 2 ^ (8 * n - 1) := by
  obtain ⟨k, hk⟩ : ∃ k, 8 * n = k + 1 := ⟨8 * n - 1, by omega⟩
  rw [hk, Nat.add_sub_cancel, pow_succ]; ring

theorem max_sub_min {t : ITy} (h : 0 < t.size) : t.max - t.min = 2 ^ (8 * t.size) - 1 := by
  unfold ITy.max ITy.min
  have := pow_half h
  split <;> omega

theorem cast_eq {t : ITy} {v : Int} (h : 0 < t.size) (hv : t.Rep v) : t.cast v = v := by
  unfold ITy.cast
  have := max_sub_min h
  obtain ⟨h1, h2⟩ := hv
  rw [Int.emod_eq_of_lt (by omega) (by omega)]; omega

theorem min_le_max {t : ITy} (h : 0 < t.size) : t.min ≤ 0 ∧ 0 ≤ t.max ∧ t.min ≤ t.max := by
  have := max_sub_min h
  have hp : (0 : Int) < 2 ^ (8 * t.size) := by positivity
  unfold ITy.max ITy.min at *
  have hp : (0 : Int) < 2 ^ (8 * t.size - 1) := by positivity
  split <;> omega

theorem nearest_clamp {t : ITy} (h : 0 < t.size) (v : Int) :
    Nearest t v (if v < t.min then t.min else if t.max < v then t.max else v) := by
  have := min_le_max h
  constructor
  · unfold ITy.Rep; split
    · omega
    · split <;> omega
  · intro x ⟨hx1, hx2⟩
    split
    · omega
    · split <;> omega

/-- Ranges grow with the size. -/
theorem pow_mono {a b : Nat} (h : a ≤ b) : (2 : Int) ^ a ≤ 2 ^ b := by
  exact_mod_cast Nat.pow_le_pow_right (by omega) h

/-- The two combinations of types for which the code is wrong. -/
def Bad (dst src : ITy) (v : Int) : Prop :=
  (src.size > dst.size ∧ src.signed = false ∧ dst.signed = true) ∨
  (src.size < dst.size ∧ src.signed = true ∧ dst.signed = false ∧ v < 0)

/-- **C51, partial.** For every pair of integer types and every value except the two combinations below,
`saturate_cast` is defined and returns the nearest value of the target type. -/
theorem C51_saturate_cast_partial (dst src : ITy) (ht : 0 < dst.size) (hf : 0 < src.size) (v : Int) (hv : src.Rep v)
    (hbad : ¬ Bad dst src v) : ∃ r, saturateCast dst src v = .ok r ∧ Nearest dst v r := by
  have hmt := min_le_max ht
  have hmf := min_le_max hf
  have hcl := nearest_clamp ht v
  have hv' := hv
  obtain ⟨hv1, hv2⟩ := hv
  unfold saturateCast
  by_cases hs : src.size > dst.size
  · rw [if_pos hs]
    have hsg : ¬ (src.signed = false ∧ dst.signed = true) := fun h => hbad (Or.inl ⟨hs, h⟩)
    have m1 := pow_mono (show 8 * dst.size ≤ 8 * src.size - 1 by omega)
    have m2 := pow_half ht
    have m3 := pow_half hf
    have hp : (0 : Int) < 2 ^ (8 * dst.size - 1) := by positivity
    have hr1 : src.Rep dst.min := by
      unfold ITy.Rep ITy.min ITy.max at *
      cases h1 : src.signed <;> cases h2 : dst.signed <;> simp_all <;> omega
    have hr2 : src.Rep dst.max := by
      unfold ITy.Rep ITy.min ITy.max at *
      cases h1 : src.signed <;> cases h2 : dst.signed <;> simp_all <;> omega
    rw [cast_eq hf hr1, cast_eq hf hr2]
    unfold clamp
    rw [if_neg (by omega)]
    refine ⟨_, ?_, hcl⟩
    split
    · simp [cast_eq ht (show dst.Rep dst.min from ⟨by omega, by omega⟩)]
    · split
      · simp [cast_eq ht (show dst.Rep dst.max from ⟨by omega, by omega⟩)]
      · simp [cast_eq ht (show dst.Rep v from ⟨by omega, by omega⟩)]
  · rw [if_neg hs]
    by_cases he : src.size = dst.size
    · rw [if_pos he]
      refine ⟨_, ?_, hcl⟩
      have hp : (0 : Int) < 2 ^ (8 * dst.size - 1) := by positivity
      have m2 := pow_half ht
      have hc : ∀ x, dst.Rep x → dst.cast x = x := fun x hx => cast_eq ht hx
      have h0 := hc 0 ⟨hmt.1, hmt.2.1⟩
      cases h1 : src.signed <;> cases h2 : dst.signed
      · have e : src.min = dst.min ∧ src.max = dst.max := by simp [ITy.min, ITy.max, h1, h2, he]
        simp only [Bool.not_false, Bool.and_false, Bool.false_and, Bool.false_eq_true, if_false]
        rw [hc v ⟨by omega, by omega⟩, if_neg (by omega), if_neg (by omega)]
      · have e : dst.min ≤ src.min := by rw [ITy.min, ITy.min, h1, h2]; simp
        simp only [Bool.not_false, Bool.and_true, Bool.true_and, Bool.false_and, Bool.not_true,
          Bool.false_eq_true, if_false]
        have hn : ¬ v < dst.min := by omega
        by_cases hv : v > dst.max
        · simp [hv, hn]
        · have hv2 : ¬ dst.max < v := hv
          simp [hv2, hn, hc v ⟨by omega, by omega⟩]
      · have e1 : dst.min = 0 := by simp [ITy.min, h2]
        have e2 : src.max ≤ dst.max := by rw [ITy.max, ITy.max, h1, h2, he]; simp; omega
        simp only [Bool.not_true, Bool.false_and, Bool.false_eq_true, if_false, Bool.not_false, Bool.and_true, Bool.true_and]
        by_cases hv : v < 0
        · rw [if_pos (by simpa using hv), if_pos (by omega), h0, e1]
        · rw [if_neg (by simpa using hv), if_neg (by omega), if_neg (by omega), hc v ⟨by omega, by omega⟩]
      · have e : src.min = dst.min ∧ src.max = dst.max := by simp [ITy.min, ITy.max, h1, h2, he]
        simp only [Bool.not_true, Bool.and_true, Bool.false_and, Bool.and_false, Bool.false_eq_true, if_false]
        rw [hc v ⟨by omega, by omega⟩, if_neg (by omega), if_neg (by omega)]
    · rw [if_neg he]
      have hlt : src.size < dst.size := by omega
      have hrep : dst.Rep v := by
        have m1 := pow_mono (show 8 * src.size ≤ 8 * dst.size - 1 by omega)
        have m2 := pow_half ht
        have m3 := pow_half hf
        have hp : (0 : Int) < 2 ^ (8 * src.size - 1) := by positivity
        have hb : ¬ (src.signed = true ∧ dst.signed = false ∧ v < 0) := fun h => hbad (Or.inr ⟨hlt, h⟩)
        unfold ITy.Rep ITy.min ITy.max at *
        cases h1 : src.signed <;> cases h2 : dst.signed <;> simp_all <;> omega
      refine ⟨v, by rw [cast_eq ht hrep], hrep, fun x _ => by omega⟩

/-- **C51 fails, 1.** From a wider unsigned to a narrower signed type `std::clamp` gets a lower bound above
its upper bound: undefined for every value. -/
theorem C51_saturate_cast_clamp_undefined (dst src : ITy) (ht : 0 < dst.size) (hs : src.size > dst.size)
    (h1 : src.signed = false) (h2 : dst.signed = true) (v : Int) : saturateCast dst src v = .ub := by
  have hf : 0 < src.size := by omega
  have m1 := pow_mono (show 8 * dst.size ≤ 8 * src.size - 1 by omega)
  have m2 := pow_half ht
  have m3 := pow_half hf
  have hp : (0 : Int) < 2 ^ (8 * dst.size - 1) := by positivity
  have e1 : src.cast dst.min = 2 ^ (8 * src.size) - 2 ^ (8 * dst.size - 1) := by
    have e0 : src.min = 0 := by simp [ITy.min, h1]
    have e2 : dst.min = -2 ^ (8 * dst.size - 1) := by simp [ITy.min, h2]
    unfold ITy.cast
    rw [e0, e2, sub_zero, add_zero, Int.emod_def, Int.ediv_eq_neg_one_of_neg_of_le (by omega) (by omega)]
    ring
  have e2 : src.cast dst.max = dst.max := by
    apply cast_eq hf
    simp only [ITy.Rep, ITy.min, ITy.max, h1, h2, if_true, Bool.false_eq_true, if_false]
    omega
  unfold saturateCast
  rw [if_pos hs, e1, e2]
  unfold clamp
  rw [if_pos (by simp only [ITy.max, h2, if_true]; omega)]
  rfl

/-- **C51 fails, 2.** From a narrower signed to a wider unsigned type every negative value wraps around
instead of saturating to 0. -/
theorem C51_saturate_cast_wraps_violated (dst src : ITy) (hf : 0 < src.size) (hs : src.size < dst.size)
    (h1 : src.signed = true) (h2 : dst.signed = false) (v : Int) (hv : src.Rep v) (hn : v < 0) :
    saturateCast dst src v = .ok (v + 2 ^ (8 * dst.size)) ∧ Nearest dst v 0 ∧ ¬ Nearest dst v (v + 2 ^ (8 * dst.size)) := by
  have ht : 0 < dst.size := by omega
  have m1 := pow_mono (show 8 * src.size ≤ 8 * dst.size - 1 by omega)
  have m2 := pow_half ht
  have m3 := pow_half hf
  have hp : (0 : Int) < 2 ^ (8 * src.size - 1) := by positivity
  have e0 : dst.min = 0 := by simp [ITy.min, h2]
  have hv1 : -2 ^ (8 * src.size - 1) ≤ v := by have := hv.1; simpa [ITy.min, h1] using this
  have hnear : Nearest dst v 0 := by
    have := nearest_clamp ht v
    rw [if_pos (by omega), e0] at this
    exact this
  refine ⟨?_, hnear, fun h => ?_⟩
  · unfold saturateCast
    rw [if_neg (by omega), if_neg (by omega)]
    unfold ITy.cast
    rw [e0, sub_zero, add_zero, Int.emod_def, Int.ediv_eq_neg_one_of_neg_of_le (by omega) (by omega)]
    congr 1; ring
  · have := h.2 0 hnear.1
    omega

/-- `int64 → int8`, `uint32 → int32`, `int16 → uint16` are covered; `uint32 → int16`, `int8 → uint32` not. -/
example : ¬ Bad ⟨true, 1⟩ ⟨true, 8⟩ (-1000) ∧ ¬ Bad ⟨true, 4⟩ ⟨false, 4⟩ 4000000000 ∧ ¬ Bad ⟨false, 2⟩ ⟨true, 2⟩ (-5) ∧
    Bad ⟨true, 2⟩ ⟨false, 4⟩ 5 ∧ Bad ⟨false, 4⟩ ⟨true, 1⟩ (-5) := by
  simp [Bad]

end Verif.Saturate
