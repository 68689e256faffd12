import Verif.Rollover.Types
import Verif.Rollover.Props
import Mathlib.Tactic.SplitIfs

/-!
# Types of `rollover_t` (C32, C33, C34 for `bool`; C127 common types)
-/

namespace Verif.Rollover

/-! ## Specification -/

/-- The unsigned types of the language, `bool` among them. -/
def IsUnsigned (t : ITy) : Prop := t = .bool ∨ ∃ r, t = .int false r

/-- An unsigned type that the promotions change: it is narrower than `int`. -/
def narrow (P : Platform) : ITy → Prop
  | .bool => True
  | .int _ r => r < P.intRank ∧ P.width r < P.width P.intRank

/-- The usual data model with 32-bit `int` and 64-bit `long`; ranks: `char`, `short`, `int`, `long`, `long long`. -/
def lp64 : Platform where
  width := fun r => if r ≤ 1 then 8 else if r = 2 then 16 else if r = 3 then 32 else 64
  intRank := 3
  mono := by intro a b h; split_ifs <;> omega
  pos := by intro a; split_ifs <;> omega

private theorem isUnsigned_of {t : ITy} (h : IsUnsigned t) : isUnsigned t = true := by
  rcases h with rfl | ⟨_, rfl⟩ <;> rfl

private theorem common_unsigned (P : Platform) (t u : ITy) (ht : isUnsigned t = true) (hu : isUnsigned u = true) :
    (isUnsigned (commonInt P t u) = true ↔ t = u ∨ ¬(narrow P t ∧ narrow P u)) ∧
    (isUnsigned (commonInt P t u) = true → t.bits P ≤ (commonInt P t u).bits P ∧ u.bits P ≤ (commonInt P t u).bits P) := by
  have hpos := P.pos P.intRank
  unfold commonInt
  by_cases e : t = u
  · subst e
    simp [ht]
  · simp only [if_neg e, e, false_or]
    cases t with
    | bool =>
      cases u with
      | bool => exact absurd rfl e
      | int s r =>
        have hs : s = false := by cases s <;> simp_all [isUnsigned]
        subst hs
        have hw := P.pos r
        by_cases h1 : r < P.intRank
        · by_cases h2 : P.width r < P.width P.intRank
          · simp [promote, balance, h1, h2, isUnsigned, narrow]
          · have hm := P.mono r P.intRank (by omega)
            simp [promote, balance, h1, h2, isUnsigned, narrow, ITy.bits]
            omega
        · have h3 : P.intRank ≤ r := by omega
          simp [promote, balance, h1, h3, isUnsigned, narrow, ITy.bits]
          omega
    | int s r =>
      have hs : s = false := by cases s <;> simp_all [isUnsigned]
      subst hs
      have hw := P.pos r
      cases u with
      | bool =>
        by_cases h1 : r < P.intRank
        · by_cases h2 : P.width r < P.width P.intRank
          · simp [promote, balance, h1, h2, isUnsigned, narrow]
          · have hm := P.mono r P.intRank (by omega)
            simp [promote, balance, h1, h2, isUnsigned, narrow, ITy.bits]
            omega
        · have h3 : P.intRank ≤ r := by omega
          simp [promote, balance, h1, h3, isUnsigned, narrow, ITy.bits]
          omega
      | int s' q =>
        have hs : s' = false := by cases s' <;> simp_all [isUnsigned]
        subst hs
        have hr1 := P.mono r P.intRank
        have hr2 := P.mono q P.intRank
        have hm1 := P.mono r (max r q) (by omega)
        have hm2 := P.mono q (max r q) (by omega)
        have hm5 := P.mono P.intRank (max P.intRank q) (by omega)
        have hm6 := P.mono q (max P.intRank q) (by omega)
        have hm7 := P.mono P.intRank (max r P.intRank) (by omega)
        have hm8 := P.mono r (max r P.intRank) (by omega)
        have hm3 := P.mono P.intRank q
        have hm4 := P.mono P.intRank r
        by_cases h1 : r < P.intRank <;> by_cases h2 : q < P.intRank <;>
          by_cases h3 : P.width r < P.width P.intRank <;> by_cases h4 : P.width q < P.width P.intRank <;>
          simp [promote, balance, h1, h2, h3, h4, isUnsigned, narrow, ITy.bits] <;>
          first
          | omega
          | (split_ifs <;> simp_all [isUnsigned, ITy.bits] <;> omega)
          | exact ⟨by have := hr1 (by omega); omega, by omega⟩
          | exact ⟨by omega, by have := hr2 (by omega); omega⟩

/-- **C127, partial.** The common type of two `rollover_t` types, and of a `rollover_t` type and an integer type (whose
unsigned counterpart takes part), in this order, is named for all types but `bool` as the integer; it is a `rollover_t`
that can be used exactly when the two types are the same or one of them is not narrower than `int`, and then it holds all
values of both.  Missing: two different types narrower than `int` (`C127_narrow_violated`), an integer in the first place
(`C127_order_violated`), and the integer type `bool`. -/
theorem C127_common_type_partial (P : Platform) (t u : ITy) (ht : IsUnsigned t) (hu : IsUnsigned u) :
    (∃ c, commonType P (.rollover t) (.rollover u) = some c ∧
      (usable (some c) = true ↔ t = u ∨ ¬(narrow P t ∧ narrow P u)) ∧
      (usable (some c) = true → t.bits P ≤ c.bits P ∧ u.bits P ≤ c.bits P)) ∧
    (∀ s r, u = .int false r → commonType P (.rollover t) (.integer (.int s r)) =
      commonType P (.rollover t) (.rollover u)) := by
  obtain ⟨h1, h2⟩ := common_unsigned P t u (isUnsigned_of ht) (isUnsigned_of hu)
  refine ⟨⟨_, rfl, h1, h2⟩, ?_⟩
  rintro s r rfl
  rfl

example : commonType lp64 (.rollover (.int false 2)) (.integer (.int true 4)) = some (.int false 4) := rfl
example : narrow lp64 (.int false 2) ∧ ¬narrow lp64 (.int false 3) := by
  refine ⟨⟨?_, ?_⟩, fun h => ?_⟩
  · simp [lp64]
  · simp [lp64]
  · simp [narrow, lp64] at h

/-- **C127: the order of two `rollover_t` types does not matter.** -/
theorem C127_rollovers_symmetric (P : Platform) (t u : ITy) :
    commonType P (.rollover t) (.rollover u) = commonType P (.rollover u) (.rollover t) := by
  have hb : ∀ s r t' q, balance P (.int s r) (.int t' q) = balance P (.int t' q) (.int s r) := by
    intro s r t' q
    cases s <;> cases t' <;> simp [balance, Nat.max_comm]
  have hp : ∀ x, ∃ s r, promote P x = .int s r := by
    intro x
    cases x with
    | bool => exact ⟨_, _, rfl⟩
    | int s r => simp only [promote]; split_ifs <;> exact ⟨_, _, rfl⟩
  simp only [commonType, commonInt]
  by_cases e : t = u
  · subst e; rfl
  · obtain ⟨s, r, h1⟩ := hp t
    obtain ⟨s', r', h2⟩ := hp u
    rw [if_neg e, if_neg (Ne.symm e), h1, h2, hb]

example : commonType lp64 (.rollover (.int false 1)) (.rollover (.int false 4)) = some (.int false 4) := rfl

/-- **C127 is false for narrow types.** The common type of `rollover_t`s of two different types narrower than `int`, and of
such a `rollover_t` and a different narrow integer type, is `rollover_t<int>`, which does not compile when it is used. -/
theorem C127_narrow_violated (P : Platform) (r q : Nat) (s : Bool) (hrq : r ≠ q)
    (hr : narrow P (.int false r)) (hq : narrow P (.int false q)) :
    commonType P (.rollover (.int false r)) (.rollover (.int false q)) = some (.int true P.intRank) ∧
    commonType P (.rollover (.int false r)) (.integer (.int s q)) = some (.int true P.intRank) ∧
    usable (some (.int true P.intRank)) = false := by
  obtain ⟨hr1, hr2⟩ := hr
  obtain ⟨hq1, hq2⟩ := hq
  have : commonInt P (.int false r) (.int false q) = .int true P.intRank := by
    simp [commonInt, hrq, promote, hr1, hr2, hq1, hq2, balance]
  exact ⟨by simp only [commonType, this], by simp [commonType, makeUnsigned, this], rfl⟩

example : commonType lp64 (.rollover (.int false 1)) (.rollover (.int false 2)) = some (.int true 3) ∧
    commonType lp64 (.rollover (.int false 1)) (.integer (.int true 2)) = some (.int true 3) := ⟨rfl, rfl⟩

/-- **C127 is false for an integer in the first place** (there is no common type), and for `bool` as the integer. -/
theorem C127_order_violated (P : Platform) (t i : ITy) :
    commonType P (.integer i) (.rollover t) = none ∧ commonType P (.rollover t) (.integer .bool) = none ∧
    usable (commonType P (.integer i) (.rollover t)) = false :=
  ⟨rfl, rfl, rfl⟩

example : (commonType lp64 (.rollover (.int false 3)) (.integer (.int true 3))).isSome = true := rfl

/-- **C127: values keep their meaning.** A value converted to a common type that can be used and back is the same, and it
is the same number there. -/
theorem C127_conversion (P : Platform) (t u c : ITy) (ht : IsUnsigned t) (hu : IsUnsigned u)
    (hc : commonType P (.rollover t) (.rollover u) = some c) (hok : usable (some c) = true)
    (x : BitVec (t.bits P)) : ofRollover (t.bits P) (ofRollover (c.bits P) x) = x ∧ val (ofRollover (c.bits P) x) = val x := by
  obtain ⟨⟨c', h, _, h3⟩, _⟩ := C127_common_type_partial P t u ht hu
  rw [hc] at h
  cases h
  obtain ⟨hle, _⟩ := h3 hok
  have hx := x.isLt
  have hpow : 2 ^ t.bits P ≤ 2 ^ c.bits P := Nat.pow_le_pow_right (by omega) hle
  have e1 : (ofRollover (c.bits P) x).toNat = x.toNat := by
    simp only [ofRollover, ofInteger, val, BitVec.ofInt_natCast, BitVec.toNat_ofNat]
    exact Nat.mod_eq_of_lt (by omega)
  refine ⟨?_, by simp only [val, e1]⟩
  apply BitVec.eq_of_toNat_eq
  have e2 : ∀ {v : Nat} (y : BitVec v) (w : Nat), (ofRollover w y).toNat = y.toNat % 2 ^ w := by
    intro v y w
    simp only [ofRollover, ofInteger, val, BitVec.ofInt_natCast, BitVec.toNat_ofNat]
  rw [e2, e1]
  exact Nat.mod_eq_of_lt hx

example : ∃ c, commonType lp64 (.rollover (.int false 2)) (.rollover (.int false 3)) = some c ∧ usable (some c) = true :=
  ⟨_, rfl, rfl⟩

/-- **C127: durations.** With `std::intmax_t` not narrower than `int`, converting a count of any unsigned type to shorter
ticks is always possible, never undefined (not even for 16-bit types, whose own product can be), and gives the
number of ticks modulo the range of the type. -/
theorem C127_duration_cast (P : Platform) (r m : Nat) (hm : P.intRank ≤ m) (h32 : 32 ≤ P.width P.intRank) (k : Int)
    (x : BitVec ((ITy.int false r).bits P)) :
    ∃ y, durationCast P (.int false r) m k x = some (.ok y) ∧ val y = (val x * k) % 2 ^ P.width r := by
  obtain ⟨⟨c, h1, h2, h3⟩, h4⟩ := C127_common_type_partial P (.int false r) (.int false m) (.inr ⟨_, rfl⟩) (.inr ⟨_, rfl⟩)
  have hc := (h4 true m rfl).trans h1
  have hn : ¬narrow P (.int false m) := by
    rintro ⟨h, _⟩
    omega
  have hu := h2.mpr (.inr fun h => hn h.2)
  obtain ⟨hb1, hb2⟩ := h3 hu
  have hw : 32 ≤ c.bits P := by
    have := P.mono _ _ hm
    simp only [ITy.bits] at hb2 ⊢
    omega
  have key : ∀ {v : Nat} (y : BitVec v) (w : Nat), val (ofRollover w y) = val y % 2 ^ w :=
    fun {v} y w => (C32_rollover_construct w 0).2.2.1 v y
  rcases C32_rollover_mul_partial (ofRollover (c.bits P) x) (ofInteger (c.bits P) k) with ⟨h, _⟩ | ⟨_, z, hz, hv⟩
  · omega
  · refine ⟨ofRollover _ z, ?_, ?_⟩
    · simp only [durationCast, hc, hu, if_true, hz, Outcome.ok_bind]
      rfl
    · have hdvd : (2 ^ P.width r : Int) ∣ 2 ^ c.bits P := pow_dvd_pow 2 hb1
      have e := (C32_rollover_construct (c.bits P) k).1
      have e' : val (ofRollover ((ITy.int false r).bits P) z) = val z % 2 ^ P.width r := key z _
      rw [e', hv, e, key, Int.emod_emod_of_dvd _ hdvd, Int.mul_emod, Int.emod_emod_of_dvd _ hdvd,
        Int.emod_emod_of_dvd _ hdvd, ← Int.mul_emod]

example : durationCast lp64 (.int false 2) 4 1000 (70#16) = some (.ok (4464#16)) := by decide

/-! ## `rollover_t<bool>` -/

/-- The exact result of an operation. -/
def BOp.exact : BOp → Int → Int → Int
  | .add, x, y => x + y
  | .sub, x, y => x - y
  | .mul, x, y => x * y
  | .div, x, y => x / y
  | .mod, x, y => x % y

/-- **C32 for `bool`, partial.** Of the operations on `rollover_t<bool>` those other than `true + true`, and those that do not
divide by zero, give the exact result modulo 2, as does unary minus.  Missing: `true + true` (`C32_bool_violated`), and
`++` and `--`, which do not compile. -/
theorem C32_bool_partial (op : BOp) (x y : Bool) (h : ¬(op = .add ∧ x = true ∧ y = true)) :
    ((op = .div ∨ op = .mod) ∧ y = false ∧ bbin op x y = .ub ∨
      ¬((op = .div ∨ op = .mod) ∧ y = false) ∧
        ∃ r, bbin op x y = .ok r ∧ bval r = op.exact (bval x) (bval y) % 2) ∧
    bval (bneg x) = (-(bval x)) % 2 := by
  cases op <;> cases x <;> cases y <;> simp_all [bbin, BOp.exact, bval, toBool, bneg] <;> decide

example : bbin .sub false true = .ok true := rfl

/-- **C32 is false for `bool`.** `true + true` is `true`, not 0; `x + y - y` is not `x` then; an even number other than zero
converts to `true`; and `++` does not compile. -/
theorem C32_bool_violated :
    bbin .add true true = .ok true ∧ (do let s ← bbin .add true true; bbin .sub s true) ≠ .ok true ∧
    (∀ k : Int, k ≠ 0 → bval (bofInteger (2 * k)) ≠ (2 * k) % 2) ∧ bincCompiles = false := by
  refine ⟨rfl, by decide, ?_, rfl⟩
  intro k hk
  have h2 : (2 * k) % 2 = 0 := by omega
  have h1 : bofInteger (2 * k) = true := by
    simp only [bofInteger, toBool]
    exact decide_eq_true (by omega)
  rw [h2, h1]
  decide

/-- **C33, C34 for `bool`.** `cmp_less` holds exactly for two different values, which are at the distance 1, half the
range. -/
theorem C34_bool (x y : Bool) :
    (bcmpLess x y = true ↔ x ≠ y) ∧ (bcmpLess x y = true ↔ (bval y - bval x) % 2 = 1) := by
  cases x <;> cases y <;> decide

end Verif.Rollover
