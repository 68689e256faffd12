import Verif.BitOps.PropsRot

/-!
# Bit counting and powers of two (C07)
-/

namespace Verif.BitOps

theorem ones_eq (k : Nat) : ∀ n, ones n k = ((List.range k).filter n.testBit).length := by
  induction k with
  | zero => intro n; rfl
  | succ k ih =>
    intro n
    rw [List.range_succ_eq_map, List.filter_cons, ones, ih]
    have e : (List.filter n.testBit (List.map Nat.succ (List.range k))).length =
        ((List.range k).filter (n / 2).testBit).length := by
      rw [List.filter_map, List.length_map]
      congr 2
      funext i
      simp [Function.comp, Nat.testBit_succ]
    rw [Nat.testBit_zero]
    rcases Nat.mod_two_eq_zero_or_one n with h | h <;> simp [h, e] <;> omega

theorem ones_extend {n k b : Nat} (hn : n < 2 ^ k) (hk : k ≤ b) : ones n b = ones n k := by
  obtain ⟨d, rfl⟩ := Nat.exists_eq_add_of_le hk
  clear hk
  rw [ones_eq, ones_eq]
  induction d with
  | zero => rfl
  | succ d ih =>
    rw [← ih, ← Nat.add_assoc, List.range_succ, List.filter_append, List.length_append]
    have : n.testBit (k + d) = false :=
      Nat.testBit_lt_two_pow (Nat.lt_of_lt_of_le hn (Nat.pow_le_pow_right (by omega) (by omega)))
    simp [this]

/-- **C07, popcount.** The number of positions that hold a one. -/
theorem C07_popcount {w : Nat} (hw : StdWidth w) (x : BitVec w) :
    popcount x = ((List.range w).filter x.getLsbD).length := by
  have hx := x.isLt
  have key : ∀ b, w ≤ b → builtinPopcount (x.setWidth b) = ((List.range w).filter x.getLsbD).length := by
    intro b hb
    have e : (x.setWidth b).toNat = x.toNat := by
      rw [BitVec.toNat_setWidth, Nat.mod_eq_of_lt]
      exact Nat.lt_of_lt_of_le hx (Nat.pow_le_pow_right (by omega) hb)
    rw [builtinPopcount, e, ones_extend hx hb, ones_eq]
    rfl
  unfold popcount
  split
  · exact key 32 (by omega)
  · exact key 64 (by rcases hw with rfl | rfl | rfl | rfl <;> omega)

theorem lowBit_spec : ∀ (fuel n : Nat), 0 < n → n < 2 ^ fuel →
    lowBit n fuel < fuel ∧ n.testBit (lowBit n fuel) = true ∧
      ∀ j, j < lowBit n fuel → n.testBit j = false := by
  intro fuel
  induction fuel with
  | zero => intro n h1 h2; simp at h2; omega
  | succ fuel ih =>
    intro n h1 h2
    unfold lowBit
    by_cases h : n % 2 = 1
    · rw [if_pos h]
      exact ⟨by omega, by simp [h], fun j hj => by omega⟩
    · rw [if_neg h]
      obtain ⟨a, b, c⟩ := ih (n / 2) (by omega) (by rw [Nat.pow_succ] at h2; omega)
      refine ⟨by omega, by rw [Nat.testBit_succ]; exact b, fun j hj => ?_⟩
      cases j with
      | zero => simp; omega
      | succ j => rw [Nat.testBit_succ]; exact c j (by omega)

theorem ne_zero_pos {w : Nat} {x : BitVec w} (h : x ≠ 0#w) : 0 < x.toNat := by
  rcases Nat.eq_zero_or_pos x.toNat with h1 | h1
  · exact absurd (BitVec.eq_of_toNat_eq (by simpa using h1)) h
  · exact h1

theorem toNat_widen {w b : Nat} (x : BitVec w) (h : w ≤ b) : (x.setWidth b).toNat = x.toNat := by
  rw [BitVec.toNat_setWidth, Nat.mod_eq_of_lt]
  exact Nat.lt_of_lt_of_le x.isLt (Nat.pow_le_pow_right (by omega) h)

theorem widen_ne_zero {w b : Nat} {x : BitVec w} (hx : x ≠ 0#w) (h : w ≤ b) : x.setWidth b ≠ 0#b := by
  intro e
  have := congrArg BitVec.toNat e
  rw [toNat_widen x h] at this
  have := ne_zero_pos hx
  simp_all

/-- **C07, countr_zero.** Zero gives the width; otherwise the result is the position of the lowest
one: that position holds a one and all below hold zeros. -/
theorem C07_countr_zero {w : Nat} (hw : StdWidth w) (x : BitVec w) :
    ∃ k : Nat, countrZero x = .ok (k : Int) ∧ k ≤ w ∧ (x = 0#w → k = w) ∧
      (x ≠ 0#w → k < w ∧ x.getLsbD k = true) ∧ ∀ j, j < k → x.getLsbD j = false := by
  have hw64 : w ≤ 64 := by rcases hw with rfl | rfl | rfl | rfl <;> omega
  unfold countrZero
  by_cases h0 : x = 0#w
  · refine ⟨w, by simp [h0], by omega, fun _ => rfl, fun h => absurd h0 h, fun j _ => by simp [h0]⟩
  · have hp := ne_zero_pos h0
    have key : ∀ b, w ≤ b → lowBit x.toNat b < w ∧ x.getLsbD (lowBit x.toNat b) = true ∧
        ∀ j, j < lowBit x.toNat b → x.getLsbD j = false := by
      intro b hb
      obtain ⟨_, h2, h3⟩ := lowBit_spec b x.toNat hp
        (Nat.lt_of_lt_of_le x.isLt (Nat.pow_le_pow_right (by omega) hb))
      refine ⟨?_, h2, h3⟩
      rcases Nat.lt_or_ge (lowBit x.toNat b) w with h | h
      · exact h
      · have : x.getLsbD (lowBit x.toNat b) = false := BitVec.getLsbD_of_ge _ _ h
        rw [BitVec.getLsbD, h2] at this; cases this
    rw [if_neg h0]
    split
    · obtain ⟨a, b, c⟩ := key w (by omega)
      exact ⟨_, by simp [builtinCtz, h0], by omega, fun h => absurd h h0, fun _ => ⟨a, b⟩, c⟩
    · obtain ⟨a, b, c⟩ := key 64 hw64
      exact ⟨_, by simp only [builtinCtz, widen_ne_zero h0 hw64, toNat_widen x hw64]; rfl, by omega,
        fun h => absurd h h0, fun _ => ⟨a, b⟩, c⟩

theorem log2_bits {n : Nat} (h : n ≠ 0) : n.testBit n.log2 = true ∧ ∀ j, n.log2 < j → n.testBit j = false := by
  have h1 := Nat.log2_self_le h
  have h2 := @Nat.lt_log2_self n
  constructor
  · have h3 : n < 2 ^ (n.log2 + 1) := h2
    rw [Nat.testBit_eq_decide_div_mod_eq]
    have : n / 2 ^ n.log2 = 1 := by
      apply Nat.div_eq_of_lt_le
      · simpa using h1
      · rw [Nat.pow_succ] at h3; omega
    simp [this]
  · intro j hj
    exact Nat.testBit_lt_two_pow (Nat.lt_of_lt_of_le h2 (Nat.pow_le_pow_right (by omega) hj))

/-- The value of `countl_zero` in terms of the highest one. -/
theorem countlZero_val {w : Nat} (hw : StdWidth w) {x : BitVec w} (h0 : x ≠ 0#w) :
    x.toNat.log2 < w ∧ countlZero x = .ok ((w - 1 - x.toNat.log2 : Nat) : Int) := by
  have hw64 : w ≤ 64 := by rcases hw with rfl | rfl | rfl | rfl <;> omega
  have hp := ne_zero_pos h0
  have hl : x.toNat.log2 < w := by
    rcases Nat.lt_or_ge x.toNat.log2 w with h | h
    · exact h
    · have h1 := Nat.log2_self_le (n := x.toNat) (by omega)
      have h2 : 2 ^ w ≤ 2 ^ x.toNat.log2 := Nat.pow_le_pow_right (by omega) h
      have := x.isLt
      omega
  refine ⟨hl, ?_⟩
  unfold countlZero
  rw [if_neg h0]
  split
  · simp [builtinClz, h0]
  · simp only [builtinClz, widen_ne_zero h0 hw64, toNat_widen x hw64, ↓reduceIte, Outcome.ok_bind,
      Outcome.pure_eq_ok]
    congr 1
    omega

/-- **C07, countl_zero.** Zero gives the width; otherwise the position `w - 1 - k` holds a one and
all above hold zeros. -/
theorem C07_countl_zero {w : Nat} (hw : StdWidth w) (x : BitVec w) :
    ∃ k : Nat, countlZero x = .ok (k : Int) ∧ k ≤ w ∧ (x = 0#w → k = w) ∧
      (x ≠ 0#w → k < w ∧ x.getLsbD (w - 1 - k) = true) ∧
      ∀ j, w - k ≤ j → x.getLsbD j = false := by
  by_cases h0 : x = 0#w
  · exact ⟨w, by simp [countlZero, h0], by omega, fun _ => rfl, fun h => absurd h0 h,
      fun j _ => by simp [h0]⟩
  · obtain ⟨hl, e⟩ := countlZero_val hw h0
    have hp := ne_zero_pos h0
    obtain ⟨b1, b2⟩ := log2_bits (n := x.toNat) (by omega)
    refine ⟨_, e, by omega, fun h => absurd h h0, fun _ => ⟨by omega, ?_⟩, fun j hj => ?_⟩
    · rw [show w - 1 - (w - 1 - x.toNat.log2) = x.toNat.log2 by omega]; exact b1
    · exact b2 j (by omega)

/-- **C07, countl_one and countr_one** count the leading and trailing ones. -/
theorem C07_count_ones {w : Nat} (hw : StdWidth w) (x : BitVec w) :
    (∃ k : Nat, countlOne x = .ok (k : Int) ∧ k ≤ w ∧ (∀ j, w - k ≤ j → j < w → x.getLsbD j = true) ∧
      (k < w → x.getLsbD (w - 1 - k) = false)) ∧
    (∃ k : Nat, countrOne x = .ok (k : Int) ∧ k ≤ w ∧ (∀ j, j < k → x.getLsbD j = true) ∧
      (k < w → x.getLsbD k = false)) := by
  constructor
  · obtain ⟨k, e, h1, h2, h3, h4⟩ := C07_countl_zero hw (~~~x)
    refine ⟨k, e, h1, fun j hj hjw => ?_, fun hk => ?_⟩
    · have := h4 j hj
      simpa [BitVec.getLsbD_not, hjw] using this
    · have := (h3 (fun h => by have := h2 h; omega)).2
      simp [BitVec.getLsbD_not] at this
      exact this.2
  · obtain ⟨k, e, h1, h2, h3, h4⟩ := C07_countr_zero hw (~~~x)
    refine ⟨k, e, h1, fun j hj => ?_, fun hk => ?_⟩
    · have := h4 j hj
      simpa [BitVec.getLsbD_not, show j < w by omega] using this
    · have := (h3 (fun h => by have := h2 h; omega)).2
      simp [BitVec.getLsbD_not] at this
      exact this.2

/-- The value of `bit_width`. -/
theorem bitWidth_val {w : Nat} (hw : StdWidth w) (x : BitVec w) :
    ∃ n : Nat, bitWidth x = .ok (n : Int) ∧ n ≤ w ∧ x.toNat < 2 ^ n ∧
      (x ≠ 0#w → n ≠ 0 ∧ 2 ^ (n - 1) ≤ x.toNat) ∧ (x = 0#w → n = 0) := by
  by_cases h0 : x = 0#w
  · refine ⟨0, ?_, by omega, by simp [h0], fun h => absurd h0 h, fun _ => rfl⟩
    simp [bitWidth, countlZero, h0]
  · obtain ⟨hl, e⟩ := countlZero_val hw h0
    have hp := ne_zero_pos h0
    refine ⟨x.toNat.log2 + 1, ?_, by omega, Nat.lt_log2_self, fun _ => ⟨by omega, ?_⟩,
      fun h => absurd h h0⟩
    · simp only [bitWidth, e, Outcome.ok_bind, Outcome.pure_eq_ok]; congr 1; omega
    · simpa using Nat.log2_self_le (n := x.toNat) (by omega)

/-- **C07, bit_width.** The least `n` with `x < 2^n`. -/
theorem C07_bit_width {w : Nat} (hw : StdWidth w) (x : BitVec w) :
    ∃ n : Nat, bitWidth x = .ok (n : Int) ∧ x.toNat < 2 ^ n ∧ ∀ m, x.toNat < 2 ^ m → n ≤ m := by
  obtain ⟨n, e, _, h1, h2, h3⟩ := bitWidth_val hw x
  refine ⟨n, e, h1, fun m hm => ?_⟩
  by_cases h0 : x = 0#w
  · rw [h3 h0]; omega
  · obtain ⟨hn, h4⟩ := h2 h0
    rcases Nat.lt_or_ge m n with h | h
    · have : 2 ^ m ≤ 2 ^ (n - 1) := Nat.pow_le_pow_right (by omega) (by omega)
      omega
    · exact h

theorem and_pred_eq_zero {n : Nat} (h : 0 < n) : n &&& (n - 1) = 0 ↔ ∃ k, n = 2 ^ k := by
  constructor
  · intro h1
    refine ⟨n.log2, ?_⟩
    rcases Nat.lt_or_ge (2 ^ n.log2) n with h2 | h2
    · exfalso
      have h3 := @Nat.lt_log2_self n
      have b1 := (log2_bits (n := n) (by omega)).1
      have b2 : (n - 1).testBit n.log2 = true := by
        rw [Nat.testBit_eq_decide_div_mod_eq]
        have : (n - 1) / 2 ^ n.log2 = 1 := by
          apply Nat.div_eq_of_lt_le
          · omega
          · rw [Nat.pow_succ] at h3; omega
        simp [this]
      have : (n &&& (n - 1)).testBit n.log2 = true := by rw [Nat.testBit_and, b1, b2]; rfl
      rw [h1] at this; simp at this
    · have := Nat.log2_self_le (n := n) (by omega); omega
  · rintro ⟨k, rfl⟩
    apply Nat.eq_of_testBit_eq
    intro i
    rw [Nat.testBit_and, Nat.testBit_two_pow_sub_one, Nat.testBit_two_pow]
    simp; omega

/-- **C07, has_single_bit** holds exactly for the powers of two. -/
theorem C07_has_single_bit {w : Nat} (hw : 0 < w) (x : BitVec w) :
    hasSingleBit x = true ↔ ∃ k, x.toNat = 2 ^ k := by
  unfold hasSingleBit
  by_cases h0 : x = 0#w
  · subst h0
    simp only [bne_self_eq_false, Bool.false_and, Bool.false_eq_true, BitVec.toNat_ofNat,
      Nat.zero_mod, false_iff, not_exists]
    intro k hk
    have := Nat.two_pow_pos k
    omega
  · have hp := ne_zero_pos h0
    have h1 : (1#w).toNat = 1 := by
      rw [BitVec.toNat_ofNat]; exact Nat.mod_eq_of_lt (Nat.one_lt_two_pow (by omega))
    have hs : (x - 1#w).toNat = x.toNat - 1 := by
      rw [BitVec.toNat_sub_of_le (by rw [BitVec.le_def, h1]; omega), h1]
    rw [← and_pred_eq_zero hp, ← hs, ← BitVec.toNat_and]
    simp only [Bool.and_eq_true, bne_iff_ne, ne_eq, h0, not_false_eq_true, true_and, beq_iff_eq]
    constructor
    · intro h; rw [h]; simp
    · intro h; exact BitVec.eq_of_toNat_eq (by simpa using h)

theorem oneShl_ok {w k : Nat} (hk : k < 32) (hkw : k < w) :
    ∃ r, oneShl w (k : Int) = .ok r ∧ r.toNat = 2 ^ k := by
  refine ⟨(1#32 <<< k).setWidth w, ?_, ?_⟩
  · unfold oneShl; rw [if_pos (by omega)]; simp
  · have h1 : 2 ^ k < 2 ^ 32 := Nat.pow_lt_pow_right (by omega) hk
    have h2 : 2 ^ k < 2 ^ w := Nat.pow_lt_pow_right (by omega) hkw
    rw [BitVec.toNat_setWidth, BitVec.toNat_shiftLeft, Nat.shiftLeft_eq]
    show 1 * 2 ^ k % 2 ^ 32 % 2 ^ w = _
    rw [Nat.one_mul, Nat.mod_eq_of_lt h1, Nat.mod_eq_of_lt h2]

/-- **C07, bit_floor, partial.** For values below `2^32` (so for every value of the types of at most
32 bits) the result is the largest power of two not above the value, and 0 for 0.  Missing: 64-bit
values of at least `2^32`, see `C07_bit_floor_wide_undefined`. -/
theorem C07_bit_floor_partial {w : Nat} (hw : StdWidth w) (x : BitVec w) (hx : x.toNat < 2 ^ 32) :
    (x = 0#w → bitFloor x = .ok 0#w) ∧
    (x ≠ 0#w → ∃ r k, bitFloor x = .ok r ∧ r.toNat = 2 ^ k ∧ 2 ^ k ≤ x.toNat ∧ x.toNat < 2 ^ (k + 1)) := by
  constructor
  · intro h; simp [bitFloor, h]
  · intro h0
    obtain ⟨n, e, hnw, h1, h2, _⟩ := bitWidth_val hw x
    obtain ⟨hn, h3⟩ := h2 h0
    have hn32 : n - 1 < 32 := by
      rcases Nat.lt_or_ge (n - 1) 32 with h | h
      · exact h
      · have : 2 ^ 32 ≤ 2 ^ (n - 1) := Nat.pow_le_pow_right (by omega) h
        omega
    obtain ⟨r, er, hr⟩ := oneShl_ok (w := w) hn32 (by omega)
    refine ⟨r, n - 1, ?_, hr, h3, by rwa [show n - 1 + 1 = n by omega]⟩
    have : ((n : Int) - 1) = ((n - 1 : Nat) : Int) := by omega
    simp [bitFloor, h0, e, this, er]

/-- **C07, bit_ceil, partial.** For values up to `2^31` that have a representable power of two above
them the result is the least power of two not below the value.  Missing: larger values, where the
32-bit shift is undefined (64-bit types) although the result is representable, see
`C07_bit_ceil_wide_undefined`. -/
theorem C07_bit_ceil_partial {w : Nat} (hw : StdWidth w) (x : BitVec w) (hx : x.toNat ≤ 2 ^ 31)
    (hr : x.toNat ≤ 2 ^ (w - 1)) :
    ∃ r k, bitCeil x = .ok r ∧ r.toNat = 2 ^ k ∧ x.toNat ≤ 2 ^ k ∧ ∀ m, x.toNat ≤ 2 ^ m → k ≤ m := by
  have hw1 : 8 ≤ w := by rcases hw with rfl | rfl | rfl | rfl <;> omega
  unfold bitCeil
  by_cases h1 : x.toNat ≤ 1
  · rw [if_pos h1]
    refine ⟨_, 0, rfl, ?_, by simpa using h1, fun m _ => by omega⟩
    rw [BitVec.toNat_ofNat]; exact Nat.mod_eq_of_lt (Nat.one_lt_two_pow (by omega))
  · rw [if_neg h1]
    have key : ∀ (b : Nat) (y : BitVec b), StdWidth b → y.toNat = x.toNat - 1 →
        ∃ r k, (do let k ← bitWidth y; oneShl w k) = .ok r ∧ r.toNat = 2 ^ k ∧ x.toNat ≤ 2 ^ k ∧
          ∀ m, x.toNat ≤ 2 ^ m → k ≤ m := by
      intro b y hb hy
      obtain ⟨n, e, _, h2, h3, _⟩ := bitWidth_val hb y
      have hy0 : y ≠ 0#b := by rintro rfl; simp at hy; omega
      obtain ⟨hn, h4⟩ := h3 hy0
      have lt_of : ∀ m, x.toNat ≤ 2 ^ m → n ≤ m := by
        intro m hm
        rcases Nat.lt_or_ge m n with h | h
        · have : 2 ^ m ≤ 2 ^ (n - 1) := Nat.pow_le_pow_right (by omega) (by omega)
          omega
        · exact h
      obtain ⟨r, er, hr'⟩ := oneShl_ok (w := w) (k := n)
        (by have := lt_of 31 hx; omega) (by have := lt_of (w - 1) hr; omega)
      exact ⟨r, n, by simp [e, er], hr', by omega, lt_of⟩
    split
    · rename_i hw32
      refine key 32 _ (by simp [StdWidth]) ?_
      have e : (x.setWidth 32).toNat = x.toNat := toNat_widen x hw32
      rw [BitVec.toNat_sub_of_le (by rw [BitVec.le_def, e]; show 1 ≤ _; omega), e]; rfl
    · refine key w _ hw ?_
      have e1 : (1#w).toNat = 1 := by
        rw [BitVec.toNat_ofNat]; exact Nat.mod_eq_of_lt (Nat.one_lt_two_pow (by omega))
      rw [BitVec.toNat_sub_of_le (by rw [BitVec.le_def, e1]; omega), e1]

/-- **C07 does not hold in full.** `bit_floor` shifts a 32-bit one: for every 64-bit value of at
least `2^32` it is undefined. -/
theorem C07_bit_floor_wide_undefined (x : BitVec 64) (hx : 2 ^ 32 ≤ x.toNat) : bitFloor x = .ub := by
  have h0 : x ≠ 0#64 := by rintro rfl; simp at hx
  obtain ⟨n, e, _, h1, h2, _⟩ := bitWidth_val (w := 64) (by simp [StdWidth]) x
  have : 33 ≤ n := by
    rcases Nat.lt_or_ge n 33 with h | h
    · have : 2 ^ n ≤ 2 ^ 32 := Nat.pow_le_pow_right (by omega) (by omega)
      omega
    · exact h
  simp only [bitFloor, h0, ↓reduceIte, e, Outcome.ok_bind, oneShl]
  rw [if_neg (by omega)]

/-- **C07 does not hold in full.** `bit_ceil` of a 64-bit value above `2^31` is undefined, although
the result is representable up to `2^63`. -/
theorem C07_bit_ceil_wide_undefined (x : BitVec 64) (hx : 2 ^ 31 < x.toNat) : bitCeil x = .ub := by
  unfold bitCeil
  rw [if_neg (by omega), if_neg (by omega)]
  have e1 : (x - 1#64).toNat = x.toNat - 1 := by
    rw [BitVec.toNat_sub_of_le (by rw [BitVec.le_def]; show 1 ≤ _; omega)]; rfl
  obtain ⟨n, e, _, h1, h2, _⟩ := bitWidth_val (w := 64) (by simp [StdWidth]) (x - 1#64)
  have : 32 ≤ n := by
    rcases Nat.lt_or_ge n 32 with h | h
    · have : 2 ^ n ≤ 2 ^ 31 := Nat.pow_le_pow_right (by omega) (by omega)
      omega
    · exact h
  simp only [e, Outcome.ok_bind, oneShl]
  rw [if_neg (by omega)]

example : popcount 0xf1#8 = 5 := by decide
example : countlZero 0x10#8 = .ok 3 := by decide
example : countrZero 0x10#16 = .ok 4 := by decide
example : bitWidth 0x1ff#16 = .ok 9 := by decide
example : bitCeil 0x81#16 = .ok 0x100#16 := by decide
example : bitFloor 0x81#32 = .ok 0x80#32 := by decide
example : 2 ^ 32 ≤ (0x123456789a#64).toNat := by decide

end Verif.BitOps
