import Verif.BitOps.Model

/-!
# Rotations (C06)
-/

namespace Verif.BitOps

/-- `r` is `x` with every bit moved up by `s` positions modulo the width. -/
def RotBy {w : Nat} (x r : BitVec w) (s : Int) : Prop :=
  ∀ i : Nat, i < w → r.getLsbD (((i : Int) + s) % (w : Int)).toNat = x.getLsbD i

/-- The specification determines the result. -/
theorem rotBy_unique {w : Nat} {x r r' : BitVec w} {s : Int} (h : RotBy x r s) (h' : RotBy x r' s) :
    r = r' := by
  apply BitVec.eq_of_getLsbD_eq
  intro i hi
  have hw : (0 : Int) < w := by omega
  have hm := Int.emod_nonneg ((i : Int) - s) (by omega : (w : Int) ≠ 0)
  have hm2 := Int.emod_lt_of_pos ((i : Int) - s) hw
  have h1 := h (((i : Int) - s) % w).toNat (by omega)
  have h2 := h' (((i : Int) - s) % w).toNat (by omega)
  have e : (((((i : Int) - s) % w).toNat : Int) + s) % w = i := by
    rw [Int.toNat_of_nonneg hm, Int.emod_add_emod]
    rw [show (i : Int) - s + s = i by omega]
    exact Int.emod_eq_of_lt (by omega) (by omega)
  rw [e] at h1 h2
  simpa using h1.trans h2.symm

theorem rotBy_trans {w : Nat} {x y z : BitVec w} {s t : Int} (h1 : RotBy x y s) (h2 : RotBy y z t) :
    RotBy x z (s + t) := by
  intro i hi
  have hw : (0 : Int) < w := by omega
  have hm := Int.emod_nonneg ((i : Int) + s) (by omega : (w : Int) ≠ 0)
  have hm2 := Int.emod_lt_of_pos ((i : Int) + s) hw
  have := h2 (((i : Int) + s) % w).toNat (by omega)
  rw [Int.toNat_of_nonneg hm, Int.emod_add_emod, Int.add_assoc] at this
  rw [this]
  exact h1 i hi

theorem rotBy_zero {w : Nat} (x : BitVec w) : RotBy x x 0 := by
  intro i hi
  rw [Int.add_zero, Int.emod_eq_of_lt (by omega) (by omega)]; simp

theorem rotBy_congr {w : Nat} {x r : BitVec w} {s t : Int} (h : RotBy x r s)
    (e : (w : Int) ∣ t - s) : RotBy x r t := by
  intro i hi
  obtain ⟨k, hk⟩ := e
  have : (i : Int) + t = (i : Int) + s + w * k := by omega
  rw [this, Int.add_mul_emod_self_left]
  exact h i hi

theorem rotBy_left {w t : Nat} (x : BitVec w) (ht : t ≤ w) :
    RotBy x ((x <<< t) ||| (x >>> (w - t))) t := by
  intro i hi
  rw [BitVec.getLsbD_or, BitVec.getLsbD_shiftLeft, BitVec.getLsbD_ushiftRight]
  by_cases h : i + t < w
  · have e : ((i : Int) + (t : Int)) % (w : Int) = (i + t : Nat) := by
      rw [← Int.natCast_add]; exact Int.emod_eq_of_lt (by omega) (by omega)
    rw [e, Int.toNat_natCast]
    have h1 : x.getLsbD (w - t + (i + t)) = false := BitVec.getLsbD_of_ge _ _ (by omega)
    have h2 : ¬ i + t < t := by omega
    simp [h, h1, h2]
  · have e : ((i : Int) + (t : Int)) % (w : Int) = (i + t - w : Nat) := by
      have : (i : Int) + t = ((i + t - w : Nat) : Int) + w * 1 := by omega
      rw [this, Int.add_mul_emod_self_left]; exact Int.emod_eq_of_lt (by omega) (by omega)
    rw [e, Int.toNat_natCast]
    have h2 : i + t - w < t := by omega
    have h3 : w - t + (i + t - w) = i := by omega
    simp [h2, h3]

theorem rotBy_right {w t : Nat} (x : BitVec w) (ht : t ≤ w) :
    RotBy x ((x >>> t) ||| (x <<< (w - t))) (-(t : Int)) := by
  have h := rotBy_left x (t := w - t) (by omega)
  rw [show w - (w - t) = t by omega, BitVec.or_comm] at h
  exact rotBy_congr h ⟨-1, by omega⟩

/-- Widths of the unsigned integer types. -/
def StdWidth (w : Nat) : Prop := w = 8 ∨ w = 16 ∨ w = 32 ∨ w = 64

theorem toNat_amount {w : Nat} {m : Int} (hm : 0 ≤ m) :
    (BitVec.ofInt w m).toNat = m.toNat % 2 ^ w := by
  rw [BitVec.toNat_ofInt]
  obtain ⟨n, rfl⟩ := Int.eq_ofNat_of_zero_le hm
  rfl

theorem amount_dvd {w n : Nat} (hw : StdWidth w) : (w : Int) ∣ (n : Int) - ((n % 2 ^ w : Nat) : Int) := by
  have h1 : w ∣ 2 ^ w := by rcases hw with rfl | rfl | rfl | rfl <;> decide
  obtain ⟨k, hk⟩ := h1
  have := Nat.div_add_mod n (2 ^ w)
  refine ⟨k * (n / 2 ^ w : Nat), ?_⟩
  have e : (n : Int) - ((n % 2 ^ w : Nat) : Int) = ((2 ^ w * (n / 2 ^ w) : Nat) : Int) := by omega
  rw [e, hk, Nat.mul_assoc]; rfl

/-- The amounts for which the non-clang expressions are defined: with `t` the amount converted to the
type, both `t` and `w - t` must be legal shift amounts. -/
def Legal (w : Nat) (n : Nat) : Prop :=
  n % 2 ^ w ≤ w ∧ (32 ≤ w → 0 < n % 2 ^ w ∧ n % 2 ^ w < w)

theorem detailRotl_spec {w : Nat} (hw : StdWidth w) (c : Compiler) (x : BitVec w) {m : Int}
    (hm : 0 ≤ m) :
    (c = .clang ∨ Legal w m.toNat → ∃ r, detailRotl c x (BitVec.ofInt w m) = .ok r ∧ RotBy x r m) ∧
    (c = .other → ¬ Legal w m.toNat → detailRotl c x (BitVec.ofInt w m) = .ub) := by
  have hw0 : 0 < w := by rcases hw with rfl | rfl | rfl | rfl <;> omega
  have hpow : w ≤ 2 ^ w := Nat.le_of_lt Nat.lt_two_pow_self
  obtain ⟨n, rfl⟩ := Int.eq_ofNat_of_zero_le hm
  have ha := toNat_amount (w := w) hm
  rw [Int.toNat_natCast] at *
  have hd := amount_dvd (w := w) (n := n) hw
  generalize BitVec.ofInt w (n : Int) = s at *
  generalize ht : n % 2 ^ w = t at *
  cases c with
  | clang =>
    refine ⟨fun _ => ⟨_, rfl, ?_⟩, fun h => by cases h⟩
    have hmt := Nat.mod_lt t hw0
    refine rotBy_congr (rotBy_left x (t := s.toNat % w) (by rw [ha]; omega)) ?_
    rw [ha]
    have e2 : (w : Int) ∣ (t : Int) - ((t % w : Nat) : Int) := ⟨(t / w : Nat), by
      have := Nat.div_add_mod t w
      have h3 : ((w * (t / w) + t % w : Nat) : Int) = t := by rw [this]
      rw [Int.natCast_add, Int.natCast_mul] at h3
      omega⟩
    have := Int.dvd_add hd e2
    rwa [show (n : Int) - t + ((t : Int) - ((t % w : Nat) : Int)) = n - ((t % w : Nat) : Int) by omega]
      at this
  | other =>
    constructor
    · rintro (h | h)
      · cases h
      · obtain ⟨h1, h2⟩ := h
        rw [ht] at h1 h2
        refine ⟨_, ?_, rotBy_congr (rotBy_left x h1) hd⟩
        have c1 : t < max w 32 := by
          rcases hw with rfl | rfl | rfl | rfl <;> omega
        have c2 : w - t < max w 32 := by
          rcases hw with rfl | rfl | rfl | rfl <;> omega
        simp only [detailRotl, ha, cshl, cshr, c1, c2, h1, ↓reduceIte, Outcome.ok_bind,
          Outcome.pure_eq_ok]
    · intro _ h
      have h' : ¬ (t ≤ w ∧ (32 ≤ w → 0 < t ∧ t < w)) := by unfold Legal at h; rwa [ht] at h
      simp only [detailRotl, ha, cshl, cshr]
      by_cases c1 : t < max w 32
      · rw [if_pos c1]
        by_cases h1 : t ≤ w
        · have c2 : ¬ w - t < max w 32 := by
            rcases hw with rfl | rfl | rfl | rfl <;> omega
          simp [h1, c2]
        · simp [h1]
      · rw [if_neg c1]; rfl

theorem detailRotr_spec {w : Nat} (hw : StdWidth w) (c : Compiler) (x : BitVec w) {m : Int}
    (hm : 0 ≤ m) :
    (c = .clang ∨ Legal w m.toNat → ∃ r, detailRotr c x (BitVec.ofInt w m) = .ok r ∧ RotBy x r (-m)) ∧
    (c = .other → ¬ Legal w m.toNat → detailRotr c x (BitVec.ofInt w m) = .ub) := by
  have hw0 : 0 < w := by rcases hw with rfl | rfl | rfl | rfl <;> omega
  obtain ⟨n, rfl⟩ := Int.eq_ofNat_of_zero_le hm
  have ha := toNat_amount (w := w) hm
  rw [Int.toNat_natCast] at *
  have hd := amount_dvd (w := w) (n := n) hw
  generalize BitVec.ofInt w (n : Int) = s at *
  generalize ht : n % 2 ^ w = t at *
  cases c with
  | clang =>
    refine ⟨fun _ => ⟨_, rfl, ?_⟩, fun h => by cases h⟩
    have hmt := Nat.mod_lt t hw0
    refine rotBy_congr (rotBy_right x (t := s.toNat % w) (by rw [ha]; omega)) ?_
    rw [ha]
    have e2 : (w : Int) ∣ (t : Int) - ((t % w : Nat) : Int) := ⟨(t / w : Nat), by
      have := Nat.div_add_mod t w
      have h3 : ((w * (t / w) + t % w : Nat) : Int) = t := by rw [this]
      rw [Int.natCast_add, Int.natCast_mul] at h3
      omega⟩
    have := Int.dvd_add hd e2
    rw [show (n : Int) - t + ((t : Int) - ((t % w : Nat) : Int)) = n - ((t % w : Nat) : Int) by omega]
      at this
    obtain ⟨k, hk⟩ := this
    exact ⟨-k, by rw [Int.mul_neg]; omega⟩
  | other =>
    constructor
    · rintro (h | h)
      · cases h
      · obtain ⟨h1, h2⟩ := h
        rw [ht] at h1 h2
        obtain ⟨k, hk⟩ := hd
        refine ⟨_, ?_, rotBy_congr (rotBy_right x h1) ⟨-k, by rw [Int.mul_neg]; omega⟩⟩
        have c1 : t < max w 32 := by
          rcases hw with rfl | rfl | rfl | rfl <;> omega
        have c2 : w - t < max w 32 := by
          rcases hw with rfl | rfl | rfl | rfl <;> omega
        simp only [detailRotr, ha, cshl, cshr, c1, c2, h1, ↓reduceIte, Outcome.ok_bind,
          Outcome.pure_eq_ok]
    · intro _ h
      have h' : ¬ (t ≤ w ∧ (32 ≤ w → 0 < t ∧ t < w)) := by unfold Legal at h; rwa [ht] at h
      simp only [detailRotr, ha, cshl, cshr]
      by_cases c1 : t < max w 32
      · rw [if_pos c1]
        by_cases h1 : t ≤ w
        · have c2 : ¬ w - t < max w 32 := by
            rcases hw with rfl | rfl | rfl | rfl <;> omega
          simp [h1, c2]
        · simp [h1]
      · rw [if_neg c1]; rfl

/-- **C06, clang.** With the clang builtins both rotations are defined and move every bit by the
amount modulo the width, for every width, value and `int` amount except the least `int` (whose
negation overflows when it is needed). -/
theorem C06_rotations_clang_partial {w : Nat} (hw : StdWidth w) (x : BitVec w) {s : Int}
    (h : -2147483648 < s) :
    (∃ r, rotl .clang x s = .ok r ∧ RotBy x r s) ∧
    (∃ r, rotr .clang x s = .ok r ∧ RotBy x r (-s)) := by
  unfold rotl rotr negInt
  by_cases h0 : s = 0
  · subst h0
    exact ⟨⟨x, by simp, rotBy_zero x⟩, ⟨x, by simp, by simpa using rotBy_zero x⟩⟩
  · simp only [h0, ↓reduceIte]
    by_cases h1 : s < 0
    · have h2 : ¬ s = -2147483648 := by omega
      simp only [h1, h2, ↓reduceIte, Outcome.ok_bind]
      refine ⟨?_, (detailRotl_spec hw .clang x (by omega)).1 (.inl rfl)⟩
      obtain ⟨r, e, hr⟩ := (detailRotr_spec hw .clang x (m := -s) (by omega)).1 (.inl rfl)
      exact ⟨r, e, by rwa [Int.neg_neg] at hr⟩
    · simp only [h1, ↓reduceIte]
      exact ⟨(detailRotl_spec hw .clang x (by omega)).1 (.inl rfl),
        (detailRotr_spec hw .clang x (by omega)).1 (.inl rfl)⟩

/-- **C06, other compilers, partial.** With the shift expressions a rotation is correct whenever it
is defined, and it is undefined exactly when the amount is not `0` and, reduced modulo `2^w`, is not
a legal pair of shift amounts (`Legal`): for 32 and 64 bits that is every `|s| ≥ w`.  Missing: amounts
of at least the width, where the claim is false (`C06_rotl_undefined`). -/
theorem C06_rotations_other_partial {w : Nat} (hw : StdWidth w) (x : BitVec w) {s : Int}
    (h : -2147483648 < s) :
    ((s = 0 ∨ Legal w s.natAbs) → (∃ r, rotl .other x s = .ok r ∧ RotBy x r s) ∧
      (∃ r, rotr .other x s = .ok r ∧ RotBy x r (-s))) ∧
    (¬ (s = 0 ∨ Legal w s.natAbs) → rotl .other x s = .ub ∧ rotr .other x s = .ub) := by
  unfold rotl rotr negInt
  by_cases h0 : s = 0
  · subst h0
    exact ⟨fun _ => ⟨⟨x, by simp, rotBy_zero x⟩, ⟨x, by simp, by simpa using rotBy_zero x⟩⟩,
      fun h => absurd (.inl rfl) h⟩
  · simp only [h0, ↓reduceIte, false_or]
    by_cases h1 : s < 0
    · have h2 : ¬ s = -2147483648 := by omega
      have e : (-s).toNat = s.natAbs := by omega
      simp only [h1, h2, ↓reduceIte, Outcome.ok_bind]
      have L := detailRotl_spec hw .other x (m := -s) (by omega)
      have R := detailRotr_spec hw .other x (m := -s) (by omega)
      rw [e] at L R
      refine ⟨fun hl => ⟨?_, L.1 (.inr hl)⟩, fun hl => ⟨R.2 rfl hl, L.2 rfl hl⟩⟩
      obtain ⟨r, er, hr⟩ := R.1 (.inr hl)
      exact ⟨r, er, by rwa [Int.neg_neg] at hr⟩
    · have e : s.toNat = s.natAbs := by omega
      simp only [h1, ↓reduceIte]
      have L := detailRotl_spec hw .other x (m := s) (by omega)
      have R := detailRotr_spec hw .other x (m := s) (by omega)
      rw [e] at L R
      exact ⟨fun hl => ⟨L.1 (.inr hl), R.1 (.inr hl)⟩, fun hl => ⟨L.2 rfl hl, R.2 rfl hl⟩⟩

/-- For 32-bit and 64-bit types the legal non-zero amounts are those below the width. -/
theorem C06_legal_wide {w n : Nat} (hw : w = 32 ∨ w = 64) (hn : n < 2147483648) :
    Legal w n ↔ 0 < n ∧ n < w := by
  have : n % 2 ^ w = n := Nat.mod_eq_of_lt (by rcases hw with rfl | rfl <;> omega)
  unfold Legal
  rw [this]
  rcases hw with rfl | rfl <;> omega

/-- **C06 does not hold in full**: rotating a 32-bit value by its width is undefined with the
shift expressions, whatever the value. -/
theorem C06_rotl_undefined (x : BitVec 32) : rotl .other x 32 = .ub ∧ rotr .other x (-32) = .ub := by
  have h := C06_rotations_other_partial (w := 32) (by simp [StdWidth]) x (s := 32) (by omega)
  have h' := C06_rotations_other_partial (w := 32) (by simp [StdWidth]) x (s := -32) (by omega)
  have hl : ¬ Legal 32 32 := by rw [C06_legal_wide (by simp) (by omega)]; omega
  exact ⟨(h.2 (by simpa using hl)).1, (h'.2 (by simpa using hl)).2⟩

/-- **C06 does not hold in full**: rotating by the least `int` is undefined, for every compiler, width and value, as the
amount is negated. -/
theorem C06_least_amount_undefined {w : Nat} (c : Compiler) (x : BitVec w) :
    rotl c x (-2147483648) = .ub ∧ rotr c x (-2147483648) = .ub := ⟨rfl, rfl⟩

/-- **C06, laws.** Whenever both calls are defined: `rotr(v, s) = rotl(v, -s)`, and rotating left
then right by the same amount gives the value back. -/
theorem C06_rotation_laws {w : Nat} (hw : StdWidth w) (c : Compiler) (x : BitVec w) {s : Int}
    (h : -2147483648 < s) (h' : s < 2147483648) {r : BitVec w} (hr : rotl c x s = .ok r) :
    rotr c x (-s) = .ok r ∧ rotr c r s = .ok x := by
  have key : ∀ y : BitVec w, (∃ r, rotl c y s = .ok r ∧ RotBy y r s) ∧
      (∃ r, rotr c y s = .ok r ∧ RotBy y r (-s)) ∧ (∃ r, rotr c y (-s) = .ok r ∧ RotBy y r s) := by
    cases c with
    | clang =>
      intro y
      have a := C06_rotations_clang_partial hw y h
      have b := (C06_rotations_clang_partial hw y (s := -s) (by omega)).2
      rw [Int.neg_neg] at b
      exact ⟨a.1, a.2, b⟩
    | other =>
      intro y
      have hl : s = 0 ∨ Legal w s.natAbs := by
        rcases Classical.em (s = 0 ∨ Legal w s.natAbs) with h1 | h1
        · exact h1
        · have := ((C06_rotations_other_partial hw x h).2 h1).1
          rw [this] at hr; cases hr
      have a := (C06_rotations_other_partial hw y h).1 hl
      have b := ((C06_rotations_other_partial hw y (s := -s) (by omega)).1
        (by rw [Int.natAbs_neg]; rcases hl with h1 | h1; exact .inl (by omega); exact .inr h1)).2
      rw [Int.neg_neg] at b
      exact ⟨a.1, a.2, b⟩
  obtain ⟨⟨r1, e1, h1⟩, _, r3, e3, h3⟩ := key x
  rw [e1] at hr
  cases hr
  refine ⟨by rw [e3, rotBy_unique h3 h1], ?_⟩
  obtain ⟨_, ⟨r2, e2, h2⟩, _⟩ := key r
  have := rotBy_trans h1 h2
  rw [Int.add_right_neg] at this
  rw [e2, rotBy_unique this (rotBy_zero x)]

example : StdWidth 16 ∧ Legal 16 16 ∧ Legal 64 63 := by
  refine ⟨by simp [StdWidth], ?_, ?_⟩
  · unfold Legal; omega
  · exact (C06_legal_wide (by simp) (by omega)).mpr (by omega)

example : rotl .other 0x81#8 1 = .ok 0x03#8 := by decide
example : rotl .clang 0x81#8 (-9) = .ok 0xc0#8 := by decide

end Verif.BitOps
