import Verif.Iter.Model
import Mathlib.Tactic.NormNum
import Mathlib.Tactic.Ring
import Mathlib.Tactic.IntervalCases

/-! # `counting_iterator`: the property theorems (C81) -/

namespace Verif.Iter

/-- An integer type as there are: at least 8 bits, and those narrower than `int` have at most 16. -/
def ITy.Sane (t : ITy) : Prop := 8 ≤ t.width ∧ (t.width < 32 → t.width ≤ 16)

/-- The range of a narrow type. -/
theorem ITy.narrow (t : ITy) (h : t.Sane) (hw : t.width < 32) : -32768 ≤ t.min ∧ t.min ≤ 0 ∧ 0 ≤ t.sup ∧ t.sup ≤ 65536 := by
  obtain ⟨s, w⟩ := t
  unfold ITy.Sane at h
  simp only at h hw
  have h1 := h.1
  have h2 := h.2 hw
  clear h hw
  unfold ITy.min ITy.sup
  simp only
  interval_cases w <;> cases s <;> decide

theorem int_range : (ITy.mk true 32).min = -2147483648 ∧ (ITy.mk true 32).sup = 2147483648 := by decide

theorem ITy.promoted_rep_narrow (t : ITy) (hw : t.width < 32) (v : Int) (h1 : -2147483648 ≤ v) (h2 : v < 2147483648) : t.promoted.Rep v := by
  unfold ITy.promoted
  rw [if_pos hw]
  unfold ITy.Rep
  rw [int_range.1, int_range.2]
  exact ⟨h1, h2⟩

theorem ITy.sup_eq (t : ITy) (h : t.Sane) : t.sup = t.min + 2 ^ t.width := by
  unfold ITy.sup ITy.min
  unfold ITy.Sane at h
  obtain ⟨w, hw⟩ : ∃ w, t.width = w + 1 := ⟨t.width - 1, by omega⟩
  rw [hw]
  simp only [Nat.add_sub_cancel, Int.pow_succ]
  split <;> ring

theorem ITy.cast_of_rep (t : ITy) (h : t.Sane) {v : Int} (hv : t.Rep v) : t.cast v = v := by
  unfold ITy.Rep at hv
  rw [t.sup_eq h] at hv
  unfold ITy.cast
  rw [Int.emod_eq_of_lt (by omega) (by omega)]
  omega

theorem ITy.rep_cast (t : ITy) (h : t.Sane) (v : Int) : t.Rep (t.cast v) := by
  unfold ITy.Rep ITy.cast
  rw [t.sup_eq h]
  have hp : (0 : Int) < 2 ^ t.width := by positivity
  have h1 := Int.emod_nonneg (v - t.min) (Int.ne_of_gt hp)
  have h2 := Int.emod_lt_of_pos (v - t.min) hp
  omega

theorem ITy.cast_congr (t : ITy) (v k : Int) : t.cast (v + k * 2 ^ t.width) = t.cast v := by
  unfold ITy.cast
  rw [show v + k * 2 ^ t.width - t.min = (v - t.min) + k * 2 ^ t.width by ring, Int.add_mul_emod_self_right]

theorem ITy.cast_eq (t : ITy) (v : Int) : ∃ k : Int, t.cast v = v + k * 2 ^ t.width := by
  refine ⟨-((v - t.min) / 2 ^ t.width), ?_⟩
  unfold ITy.cast
  rw [Int.emod_def]
  ring

theorem ITy.promoted_sane (t : ITy) (h : t.Sane) : t.promoted.Sane := by
  unfold ITy.promoted; split
  · exact ⟨by show 8 ≤ 32; omega, fun h => absurd h (by show ¬ 32 < 32; omega)⟩
  · exact h

/-- A narrow value, and the sum of one and an offset giving another, is within `int`. -/
theorem ITy.rep_promoted (t : ITy) (h : t.Sane) {v : Int} (hv : t.Rep v) : t.promoted.Rep v := by
  by_cases hw : t.width < 32
  · have := t.narrow h hw
    unfold ITy.Rep at hv
    exact t.promoted_rep_narrow hw v (by omega) (by omega)
  · unfold ITy.promoted; rw [if_neg hw]; exact hv

theorem arith_of_rep (t : ITy) (h : t.Sane) {v : Int} (hv : t.Rep v) : t.arith v = .ok v := by
  unfold ITy.arith
  rw [t.cast_of_rep h hv]
  simp [hv]

/-- **C81, steps.** Wherever the result is a value of the type, `++`, `--`, `+ d`, `- d` give the integer that arithmetic says. -/
theorem C81_steps (t : ITy) (h : t.Sane) (i d : Int) :
    (t.Rep (i + 1) → inc t i = .ok (i + 1)) ∧ (t.Rep (i - 1) → dec t i = .ok (i - 1)) ∧
    (t.Rep (i + d) → plus t i d = .ok (i + d)) ∧ (t.Rep (i - d) → minus t i d = .ok (i - d)) ∧
    (t.Rep (i + 1) → postInc t i = .ok (i, i + 1)) ∧ (t.Rep (i - 1) → postDec t i = .ok (i, i - 1)) := by
  have key : ∀ v, t.Rep v → (t.promoted.arith v >>= fun r => pure (t.cast r)) = Outcome.ok v := by
    intro v hv
    rw [arith_of_rep t.promoted (t.promoted_sane h) (t.rep_promoted h hv)]
    show Outcome.ok (t.cast v) = _
    rw [t.cast_of_rep h hv]
  have hi : t.Rep (i + 1) → inc t i = .ok (i + 1) := key _
  have hd : t.Rep (i - 1) → dec t i = .ok (i - 1) := key _
  exact ⟨hi, hd, key _, key _, fun hr => by unfold postInc; rw [hi hr]; rfl, fun hr => by unfold postDec; rw [hd hr]; rfl⟩

/-- **C81, counting.** Reading `n` values gives the start and its successors, in order. -/
theorem C81_counts (t : ITy) (h : t.Sane) (n : Nat) (i : Int) (hi : t.Rep i) (hn : t.Rep (i + n)) :
    readN t n i = .ok ((List.range n).map fun k : Nat => i + (k : Int), i + n) := by
  induction n generalizing i with
  | zero => simp [readN]
  | succ n ih =>
    have h1 : t.Rep (i + 1) := by
      unfold ITy.Rep at *
      push_cast at hn
      omega
    rw [readN, (C81_steps t h i 0).2.2.2.2.1 h1, Outcome.ok_bind]
    simp only
    rw [ih (i + 1) h1 (by push_cast at hn; rwa [show i + 1 + (n : Int) = i + (n + 1) by ring]), Outcome.ok_bind]
    show Outcome.ok _ = _
    congr 1
    refine Prod.ext ?_ (by push_cast; ring)
    rw [List.range_succ_eq_map, List.map_cons, List.map_map]
    simp only [Int.natCast_zero, Int.add_zero, List.cons.injEq, true_and]
    apply List.map_congr_left
    intro k _
    simp only [Function.comp]
    push_cast
    ring

/-- **C81, round trips.** Moving by `d` to a value of the type is undone by `- d`, and the difference is `d`. -/
theorem C81_round_trips (t : ITy) (h : t.Sane) (i d : Int) (hi : t.Rep i) (hd : t.promoted.Rep d) (hid : t.Rep (i + d)) :
    (plus t i d >>= fun j => minus t j d) = .ok i ∧ (plus t i d >>= fun j => diff t j i) = .ok d := by
  have hs := C81_steps t h
  rw [(hs i d).2.2.1 hid]
  simp only [Outcome.ok_bind]
  refine ⟨?_, ?_⟩
  · have := (hs (i + d) d).2.2.2.1
    rw [show i + d - d = i by ring] at this
    exact this hi
  · unfold diff
    rw [show i + d - i = d by ring]
    exact arith_of_rep t.promoted (t.promoted_sane h) hd

/-- **C81, distance, partial.** The distance is the difference of the values for types narrower than `int` and, unless it
overflows, for signed types; for unsigned types of at least the width of `int` only if it is not negative.  Missing: negative
distances of those (`C81_distance_unsigned_violated`). -/
theorem C81_distance_partial (t : ITy) (h : t.Sane) (x y : Int) (hx : t.Rep x) (hy : t.Rep y)
    (hc : t.width < 32 ∨ (t.signed = true ∧ t.Rep (x - y)) ∨ y ≤ x ∧ t.signed = false) : diff t x y = .ok (x - y) := by
  unfold diff
  apply arith_of_rep _ (t.promoted_sane h)
  rcases hc with hw | ⟨_, hr⟩ | ⟨hle, hs⟩
  · have := t.narrow h hw
    unfold ITy.Rep at hx hy
    exact t.promoted_rep_narrow hw _ (by omega) (by omega)
  · exact t.rep_promoted h hr
  · apply t.rep_promoted h
    unfold ITy.Rep ITy.min at hx hy ⊢
    simp only [hs, Bool.false_eq_true, if_false] at hx hy ⊢
    omega

/-- For an unsigned type of at least the width of `int` the distance to an earlier iterator is a positive number: `2^w` too large. -/
theorem C81_distance_unsigned_violated (t : ITy) (h : t.Sane) (hw : 32 ≤ t.width) (hs : t.signed = false) (x y : Int)
    (hx : t.Rep x) (hy : t.Rep y) (hlt : x < y) : diff t x y = .ok (x - y + 2 ^ t.width) ∧ 0 < x - y + 2 ^ t.width := by
  have hp : t.promoted = t := by unfold ITy.promoted; rw [if_neg (by omega)]
  have hr : t.Rep (x - y + 2 ^ t.width) := by
    unfold ITy.Rep ITy.min ITy.sup at hx hy ⊢
    simp only [hs, Bool.false_eq_true, if_false] at hx hy ⊢
    omega
  refine ⟨?_, ?_⟩
  · unfold diff
    rw [hp]
    unfold ITy.arith
    rw [if_neg (by rw [hs]; decide)]
    have := t.cast_congr (x - y) 1
    rw [Int.one_mul] at this
    rw [← this, t.cast_of_rep h hr]
  · unfold ITy.Rep ITy.min ITy.sup at hx hy
    simp only [hs, Bool.false_eq_true, if_false] at hx hy
    omega

/-- Moving past the ends: a signed type of at least the width of `int` overflows, every other wraps around. -/
theorem C81_past_the_end (t : ITy) (h : t.Sane) (i : Int) (hi : i + 1 = t.sup) :
    inc t i = if t.signed = true ∧ 32 ≤ t.width then .ub else .ok t.min := by
  have hwrap : t.cast t.sup = t.min := by
    rw [t.sup_eq h]
    have := t.cast_congr t.min 1
    rw [Int.one_mul] at this
    rw [this]
    apply t.cast_of_rep h
    unfold ITy.Rep
    rw [t.sup_eq h]
    have hp : (0 : Int) < 2 ^ t.width := by positivity
    omega
  unfold inc
  rw [hi]
  by_cases hw : t.width < 32
  · rw [if_neg (by omega)]
    have := t.narrow h hw
    have hr : t.promoted.Rep t.sup := t.promoted_rep_narrow hw _ (by omega) (by omega)
    rw [arith_of_rep _ (t.promoted_sane h) hr]
    show Outcome.ok (t.cast t.sup) = _
    rw [hwrap]
  · have hp : t.promoted = t := by unfold ITy.promoted; rw [if_neg hw]
    rw [hp]
    unfold ITy.arith
    by_cases hs : t.signed = true
    · rw [if_pos hs, if_neg (by unfold ITy.Rep; omega), if_pos ⟨hs, by omega⟩]
      rfl
    · rw [if_neg hs, if_neg (fun e => hs e.1)]
      show Outcome.ok (t.cast (t.cast t.sup)) = _
      rw [hwrap, ← hwrap, t.cast_of_rep h (t.rep_cast h _)]

/-- **C81, order.** Iterators compare as their values do, and so as the number of steps from one to the other. -/
theorem C81_order (x y : Int) : (eq x y = true ↔ x = y) ∧ (cmp x y = .lt ↔ x < y) ∧ (cmp x y = .gt ↔ y < x) ∧ (cmp x y = .eq ↔ x = y) := by
  unfold eq cmp
  refine ⟨by simp, Int.compare_eq_lt, Int.compare_eq_gt, Int.compare_eq_eq⟩

example : readN ⟨true, 8⟩ 3 65 = .ok ([65, 66, 67], 68) := by decide
example : diff ⟨false, 32⟩ 1 2 = .ok 4294967295 := by decide
example : (ITy.mk false 16).Sane ∧ (ITy.mk false 16).Rep 65535 ∧ inc ⟨false, 16⟩ 65535 = .ok 0 := by
  refine ⟨⟨by decide, by decide⟩, by decide, by decide⟩

end Verif.Iter
