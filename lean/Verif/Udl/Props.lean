import Verif.Udl.Model
import Mathlib.Tactic.Ring
import Mathlib.Tactic.NormNum
import Mathlib.Data.Int.ModEq

/-! # User-defined integer literals: the property theorems (C72, C80) -/

namespace Verif.Udl

/-! ## Specification: the grammar of integer literals -/

/-- `digit`, `digit-sequence ' opt digit`. -/
inductive DigitSeq (ok : Nat → Prop) : List Nat → List Nat → Prop
  | one {d} : ok d → DigitSeq ok [d] [d]
  | next {cs ds d} : DigitSeq ok cs ds → ok d → DigitSeq ok (cs ++ [d]) (ds ++ [d])
  | sep {cs ds d} : DigitSeq ok cs ds → ok d → DigitSeq ok (cs ++ [39, d]) (ds ++ [d])

/-- The value of a digit character. -/
inductive DigitVal : Nat → Nat → Prop
  | dec {c} : 48 ≤ c → c ≤ 57 → DigitVal c (c - 48)
  | lower {c} : 97 ≤ c → c ≤ 102 → DigitVal c (c - 87)
  | upper {c} : 65 ≤ c → c ≤ 70 → DigitVal c (c - 55)

/-- A digit of a base. -/
def DigitOf (base c : Nat) : Prop := ∃ v, DigitVal c v ∧ v < base

/-- C++ integer literals without suffix: the characters, the base and the digits. -/
inductive Literal : List Nat → Nat → List Nat → Prop
  | decimal {d cs ds} : d ≠ 48 → DigitSeq (DigitOf 10) (d :: cs) ds → Literal (d :: cs) 10 ds
  | zero : Literal [48] 8 []
  | octal {cs ds} : DigitSeq (DigitOf 8) cs ds → Literal (48 :: cs) 8 ds
  | octalSep {cs ds} : DigitSeq (DigitOf 8) cs ds → Literal (48 :: 39 :: cs) 8 ds
  | hex {x cs ds} : x = 120 ∨ x = 88 → DigitSeq (DigitOf 16) cs ds → Literal (48 :: x :: cs) 16 ds
  | binary {x cs ds} : x = 98 ∨ x = 66 → DigitSeq (DigitOf 2) cs ds → Literal (48 :: x :: cs) 2 ds

/-- The value of digits in a base: every digit times the power of the base of its place. -/
inductive Value (base : Nat) : List Nat → Nat → Prop
  | nil : Value base [] 0
  | cons {c v ds n} : DigitVal c v → Value base ds n → Value base (c :: ds) (v * base ^ ds.length + n)

/-- What a type makes of a value that need not fit. -/
def converted (t : Ty) (n : Nat) : Outcome Int :=
  if t.signed then
    if t.w < 32 then .ok (((n : Int) + 2 ^ (t.w - 1)) % 2 ^ t.w - 2 ^ (t.w - 1))
    else if n < 2 ^ (t.w - 1) then .ok n
    else .ub
  else .ok ((n % 2 ^ t.w : Nat) : Int)

/-! ## Digits -/

theorem DigitVal.unique {c v w : Nat} (h1 : DigitVal c v) (h2 : DigitVal c w) : v = w := by
  cases h1 <;> cases h2 <;> omega

theorem lower_or : ∀ c : Nat, c < 128 → (97 ≤ forceLowerCase c ∧ forceLowerCase c ≤ 102 ↔ (97 ≤ c ∧ c ≤ 102) ∨ (65 ≤ c ∧ c ≤ 70)) := by
  decide

theorem upper_val : ∀ c : Nat, c < 128 → 65 ≤ c → c ≤ 70 → forceLowerCase c = c + 32 := by decide
theorem lower_val : ∀ c : Nat, c < 128 → 97 ≤ c → c ≤ 102 → forceLowerCase c = c := by decide

theorem DigitVal.lt {c v : Nat} (h : DigitVal c v) : c < 128 := by cases h <;> omega

theorem DigitVal.le {c v : Nat} (h : DigitVal c v) : v < 16 := by cases h <;> omega

theorem integralValue_eq {c v : Nat} (h : DigitVal c v) : integralValue c = v := by
  unfold integralValue isDecimalDigit
  cases h with
  | dec h1 h2 => simp [h1, h2]
  | lower h1 h2 =>
    rw [if_neg (by simp; omega), lower_val c (by omega) h1 h2]; omega
  | upper h1 h2 =>
    rw [if_neg (by simp; omega), upper_val c (by omega) h1 h2]; omega

theorem DigitVal.not_sep {c v : Nat} (h : DigitVal c v) : isDigitSep c = false := by
  unfold isDigitSep
  cases h <;> simp <;> omega

/-! ## The accumulator -/

/-- The loop over the digits, separators skipped, of an unbounded integer. -/
theorem assign_unsigned (w : Nat) (x : Int) : assign ⟨false, w⟩ x = .ok (x % 2 ^ w) := rfl

/-- Storing commutes with converting: for any accumulated `n`, the converted accumulator goes to the converted next. -/
theorem digit_step (t : Ty) (hw : 5 ≤ t.w) (base c v n : Nat) (hb : base ≤ 16) (hc : DigitVal c v) (hv : v < base) :
    (converted t n >>= fun s => maybeAddDigit t base c s) = converted t (n * base + v) := by
  have hpos : (0 : Int) < 2 ^ t.w := by positivity
  have hiv := integralValue_eq hc
  have hns := hc.not_sep
  unfold maybeAddDigit
  simp only [hns, Bool.not_false, if_true, hiv]
  unfold converted
  by_cases hs : t.signed = true
  · simp only [hs, if_true]
    by_cases h32 : t.w < 32
    · simp only [h32, if_true, Outcome.ok_bind, assign, hs]
      congr 1
      set H : Int := 2 ^ (t.w - 1) with hH
      have e : (2 : Int) ^ t.w = 2 * H := by
        rw [hH, show t.w = (t.w - 1) + 1 by omega, pow_succ, Nat.add_sub_cancel]; ring
      rw [e]
      have hcong : ∀ a b : Int, a ≡ b [ZMOD (2 * H)] → (a + H) % (2 * H) = (b + H) % (2 * H) := by
        intro a b h; exact Int.ModEq.add_right H h
      have hred : ∀ a : Int, (a + H) % (2 * H) - H ≡ a [ZMOD (2 * H)] := by
        intro a
        have : (a + H) % (2 * H) - H ≡ (a + H) - H [ZMOD (2 * H)] := Int.ModEq.sub_right H (Int.mod_modEq _ _)
        rwa [Int.add_sub_cancel] at this
      congr 1
      apply hcong
      push_cast
      refine Int.ModEq.add_right _ ?_
      refine (hred _).trans ?_
      exact Int.ModEq.mul_right _ (hred _)
    · simp only [h32, if_false]
      have hH : (2 : Nat) ^ (t.w - 1) > 0 := by positivity
      by_cases hn : n < 2 ^ (t.w - 1)
      · rw [if_pos hn, Outcome.ok_bind]
        unfold assign
        simp only [hs, if_true, h32, if_false]
        have hnn : (0 : Int) ≤ (n : Int) * base := by positivity
        have hpn : -(2 : Int) ^ (t.w - 1) ≤ 0 := by
          have : (0 : Int) < 2 ^ (t.w - 1) := by positivity
          omega
        by_cases hm : n * base < 2 ^ (t.w - 1)
        · have hm' : (n : Int) * base < 2 ^ (t.w - 1) := by exact_mod_cast hm
          rw [if_pos ⟨by omega, hm'⟩, Outcome.ok_bind]
          by_cases hmv : n * base + v < 2 ^ (t.w - 1)
          · have hmv' : (n : Int) * base + v < 2 ^ (t.w - 1) := by exact_mod_cast hmv
            rw [if_pos ⟨by omega, hmv'⟩, if_pos hmv]; push_cast; rfl
          · have hmv' : ¬ (n : Int) * base + v < 2 ^ (t.w - 1) := by exact_mod_cast hmv
            rw [if_neg (fun h => hmv' h.2), if_neg hmv]
        · have hm' : ¬ (n : Int) * base < 2 ^ (t.w - 1) := by exact_mod_cast hm
          rw [if_neg (fun h => hm' h.2), if_neg (by omega)]; rfl
      · rw [if_neg hn, if_neg]
        · rfl
        · have hb1 : 1 ≤ base := by omega
          have : n ≤ n * base := Nat.le_mul_of_pos_right n hb1
          omega
  · have hs' : t.signed = false := by simpa using hs
    simp only [hs', Bool.false_eq_true, if_false, Outcome.ok_bind, assign]
    congr 1
    push_cast
    have h1 : (n : Int) % 2 ^ t.w * base % 2 ^ t.w + v ≡ n * base + v [ZMOD (2 ^ t.w)] := by
      refine Int.ModEq.add_right _ ?_
      refine (Int.mod_modEq _ _).trans ?_
      exact Int.ModEq.mul_right _ (Int.mod_modEq _ _)
    exact h1

/-- Horner's rule. -/
def horner (base : Nat) : Nat → List Nat → Nat
  | n, [] => n
  | n, v :: vs => horner base (n * base + v) vs

/-- The digits of the characters, without separators. -/
inductive Digits (base : Nat) : List Nat → List Nat → List Nat → Prop
  | nil : Digits base [] [] []
  | sep {cs ds vs} : Digits base cs ds vs → Digits base (39 :: cs) ds vs
  | digit {c v cs ds vs} : DigitVal c v → v < base → Digits base cs ds vs → Digits base (c :: cs) (c :: ds) (v :: vs)

theorem rawParse_eq (t : Ty) (hw : 5 ≤ t.w) (base : Nat) (hb : base ≤ 16) {cs ds vs : List Nat} (h : Digits base cs ds vs) (n : Nat) :
    (converted t n >>= fun s => rawParse t base cs s) = converted t (horner base n vs) := by
  induction h generalizing n with
  | nil => rw [horner]; cases converted t n <;> rfl
  | @sep cs ds vs _ ih =>
    rw [← ih n]
    congr 1
  | @digit c v cs ds vs hc hv _ ih =>
    rw [horner, ← ih (n * base + v), ← digit_step t hw base c v n hb hc hv]
    cases converted t n with
    | ok s => rfl
    | ub => rfl
    | panic => rfl

theorem Digits.append {base : Nat} {cs ds vs cs' ds' vs' : List Nat} (h : Digits base cs ds vs) (h' : Digits base cs' ds' vs') :
    Digits base (cs ++ cs') (ds ++ ds') (vs ++ vs') := by
  induction h with
  | nil => exact h'
  | sep _ ih => exact .sep ih
  | digit hc hv _ ih => exact .digit hc hv ih

theorem DigitSeq.digits {base : Nat} {cs ds : List Nat} (h : DigitSeq (DigitOf base) cs ds) : ∃ vs, Digits base cs ds vs := by
  induction h with
  | one h => obtain ⟨v, h1, h2⟩ := h; exact ⟨[v], .digit h1 h2 .nil⟩
  | next _ h ih =>
    obtain ⟨v, h1, h2⟩ := h; obtain ⟨vs, hvs⟩ := ih
    exact ⟨_, hvs.append (.digit h1 h2 .nil)⟩
  | sep _ h ih =>
    obtain ⟨v, h1, h2⟩ := h; obtain ⟨vs, hvs⟩ := ih
    exact ⟨_, hvs.append (.sep (.digit h1 h2 .nil))⟩

theorem horner_add (base n : Nat) (vs : List Nat) : horner base n vs = n * base ^ vs.length + horner base 0 vs := by
  induction vs generalizing n with
  | nil => simp [horner]
  | cons v vs ih =>
    rw [horner, horner, ih, ih (0 * base + v), List.length_cons, pow_succ]; ring

theorem Digits.value {base : Nat} {cs ds vs : List Nat} (h : Digits base cs ds vs) : vs.length = ds.length ∧ Value base ds (horner base 0 vs) := by
  induction h with
  | nil => exact ⟨rfl, .nil⟩
  | sep _ ih => exact ih
  | @digit c v cs ds vs hc hv _ ih =>
    refine ⟨by simp [ih.1], ?_⟩
    rw [horner, horner_add, Nat.zero_mul, Nat.zero_add, ih.1]
    exact .cons hc ih.2

theorem Value.unique {base : Nat} {ds : List Nat} {n m : Nat} (h : Value base ds n) (h' : Value base ds m) : n = m := by
  induction h generalizing m with
  | nil => cases h'; rfl
  | cons hv _ ih => cases h' with
    | cons hv' h' => rw [hv.unique hv', ih h']

theorem Digits.all {base : Nat} {isDigit : Nat → Bool} (hd : ∀ c v, DigitVal c v → v < base → isDigit c = true) {cs ds vs : List Nat}
    (h : Digits base cs ds vs) : (cs.all fun c => isDigit c || isDigitSep c) = true := by
  induction h with
  | nil => rfl
  | sep _ ih => rw [List.all_cons, ih]; simp [isDigitSep]
  | digit hc hv _ ih => rw [List.all_cons, ih, hd _ _ hc hv]; rfl

theorem checked_eq (t : Ty) (hw : 5 ≤ t.w) {base : Nat} (hb : base ≤ 16) {isDigit : Nat → Bool}
    (hd : ∀ c v, DigitVal c v → v < base → isDigit c = true) {cs ds vs : List Nat} (h : Digits base cs ds vs) :
    checked t base isDigit cs = converted t (horner base 0 vs) := by
  unfold checked
  rw [if_pos (h.all hd), ← rawParse_eq t hw base hb h 0]
  have h0 : converted t 0 = .ok 0 := by
    unfold converted
    split
    · split
      · congr 1
        have e : (2 : Int) ^ t.w = 2 * 2 ^ (t.w - 1) := by
          rw [show t.w = (t.w - 1) + 1 by omega, pow_succ, Nat.add_sub_cancel]; ring
        have hp : (0 : Int) < 2 ^ (t.w - 1) := by positivity
        rw [e, Int.emod_eq_of_lt (by push_cast; omega) (by push_cast; omega)]; push_cast; omega
      · rw [if_pos (by positivity)]; rfl
    · simp
  rw [h0]; rfl

theorem hex_ok (c v : Nat) (h : DigitVal c v) (_ : v < 16) : isHexDigit c = true := by
  unfold isHexDigit
  cases h with
  | dec h1 h2 => simp [h1, h2]
  | lower h1 h2 => have := (lower_or c (by omega)).mpr (.inl ⟨h1, h2⟩); simp [this.1, this.2]
  | upper h1 h2 => have := (lower_or c (by omega)).mpr (.inr ⟨h1, h2⟩); simp [this.1, this.2]

theorem dec_ok (c v : Nat) (h : DigitVal c v) (hv : v < 10) : isDecimalDigit c = true := by
  unfold isDecimalDigit; cases h <;> simp <;> omega
theorem oct_ok (c v : Nat) (h : DigitVal c v) (hv : v < 8) : isOctalDigit c = true := by
  unfold isOctalDigit; cases h <;> simp <;> omega
theorem bin_ok (c v : Nat) (h : DigitVal c v) (hv : v < 2) : isBinaryDigit c = true := by
  unfold isBinaryDigit; cases h <;> simp <;> omega

/-- The first character of a digit sequence is a digit. -/
theorem DigitSeq.head {ok : Nat → Prop} {cs ds : List Nat} (h : DigitSeq ok cs ds) : ∃ d rest, cs = d :: rest ∧ ok d := by
  induction h with
  | one h => exact ⟨_, [], rfl, h⟩
  | next _ _ ih => obtain ⟨d, r, rfl, h⟩ := ih; exact ⟨d, _, rfl, h⟩
  | sep _ _ ih => obtain ⟨d, r, rfl, h⟩ := ih; exact ⟨d, _, rfl, h⟩

theorem parse_octal (t : Ty) (c : Nat) (cs : List Nat) (h : c ≠ 120 ∧ c ≠ 88 ∧ c ≠ 98 ∧ c ≠ 66) :
    parseLiteral t (48 :: c :: cs) = checked t 8 isOctalDigit (c :: cs) := by
  unfold parseLiteral
  split <;> simp_all

theorem parse_decimal (t : Ty) (c : Nat) (cs : List Nat) (h : c ≠ 48) :
    parseLiteral t (c :: cs) = checked t 10 isDecimalDigit (c :: cs) := by
  unfold parseLiteral
  split <;> simp_all

/-- **C72.** Every C++ integer literal — decimal, octal, hexadecimal in either case, binary, with digit separators, of any
length — is accepted and parsed to its value, converted to the type: wrapped for unsigned types; for signed types of at
least 32 bits the value itself if it fits and otherwise an error. -/
theorem C72_parse_literal_partial (t : Ty) (hw : 5 ≤ t.w) {cs ds : List Nat} {base n : Nat} (h : Literal cs base ds) (hn : Value base ds n) :
    parseLiteral t cs = converted t n := by
  cases h with
  | @decimal d cs ds hd hs =>
    obtain ⟨vs, hvs⟩ := hs.digits
    rw [parse_decimal t d cs hd]
    have := checked_eq t hw (by omega) dec_ok hvs
    rw [hn.unique hvs.value.2]
    exact this
  | zero =>
    have := checked_eq t hw (base := 8) (by omega) oct_ok .nil
    cases hn
    exact this
  | octal hs =>
    obtain ⟨d, rest, rfl, v, hv1, hv2⟩ := hs.head
    obtain ⟨vs, hvs⟩ := hs.digits
    rw [parse_octal t d rest (by cases hv1 <;> omega)]
    rw [hn.unique hvs.value.2]
    exact checked_eq t hw (by omega) oct_ok hvs
  | octalSep hs =>
    obtain ⟨vs, hvs⟩ := hs.digits
    rw [parse_octal t 39 _ (by omega)]
    rw [hn.unique hvs.value.2]
    exact checked_eq t hw (by omega) oct_ok (.sep hvs)
  | hex hx hs =>
    obtain ⟨vs, hvs⟩ := hs.digits
    rw [hn.unique hvs.value.2]
    have := checked_eq t hw (by omega) hex_ok hvs
    rcases hx with rfl | rfl <;> exact this
  | binary hx hs =>
    obtain ⟨vs, hvs⟩ := hs.digits
    rw [hn.unique hvs.value.2]
    have := checked_eq t hw (by omega) bin_ok hvs
    rcases hx with rfl | rfl <;> exact this

/-- **C72, unsigned types.** The value modulo `2^W`. -/
theorem C72_parse_unsigned (w : Nat) (hw : 5 ≤ w) {cs ds : List Nat} {base n : Nat} (h : Literal cs base ds) (hn : Value base ds n) :
    parseLiteral ⟨false, w⟩ cs = .ok ((n % 2 ^ w : Nat) : Int) := by
  rw [C72_parse_literal_partial ⟨false, w⟩ hw h hn]; rfl

/-- **C72 (negation).** A literal too large for a signed type of at least 32 bits has no value modulo `2^W`: the
arithmetic overflows and the literal does not compile. -/
theorem C72_signed_overflow_violated (w : Nat) (hw : 32 ≤ w) {cs ds : List Nat} {base n : Nat} (h : Literal cs base ds)
    (hn : Value base ds n) (hbig : 2 ^ (w - 1) ≤ n) : parseLiteral ⟨true, w⟩ cs = .ub := by
  rw [C72_parse_literal_partial ⟨true, w⟩ (by show 5 ≤ w; omega) h hn]
  have h1 : ¬ w < 32 := by omega
  have h2 : ¬ n < 2 ^ (w - 1) := by omega
  simp [converted, h1, h2]

/-- Every literal has a value. -/
theorem C72_literal_has_value {cs ds : List Nat} {base : Nat} (h : Literal cs base ds) : ∃ n, Value base ds n := by
  cases h with
  | zero => exact ⟨0, .nil⟩
  | decimal _ hs => obtain ⟨vs, hvs⟩ := hs.digits; exact ⟨_, hvs.value.2⟩
  | octal hs => obtain ⟨vs, hvs⟩ := hs.digits; exact ⟨_, hvs.value.2⟩
  | octalSep hs => obtain ⟨vs, hvs⟩ := hs.digits; exact ⟨_, hvs.value.2⟩
  | hex _ hs => obtain ⟨vs, hvs⟩ := hs.digits; exact ⟨_, hvs.value.2⟩
  | binary _ hs => obtain ⟨vs, hvs⟩ := hs.digits; exact ⟨_, hvs.value.2⟩

/-- The prefix and the rest of a literal. -/
inductive Split : List Nat → Nat → List Nat → Prop
  | decimal {d cs} : d ≠ 48 → Split (d :: cs) 10 (d :: cs)
  | octal {c cs} : c ≠ 120 → c ≠ 88 → c ≠ 98 → c ≠ 66 → Split (48 :: c :: cs) 8 (c :: cs)
  | hex {x cs} : x = 120 ∨ x = 88 → Split (48 :: x :: cs) 16 cs
  | binary {x cs} : x = 98 ∨ x = 66 → Split (48 :: x :: cs) 2 cs

/-- **C72, rejection.** With a character after the prefix that is neither a separator nor a digit of the base — a point, an
exponent, a digit too large — the literal does not compile, whatever the type. -/
theorem C72_rejected (t : Ty) {cs body : List Nat} {base : Nat} (h : Split cs base body) {c : Nat} (hm : c ∈ body) (hc : c < 128)
    (hsep : c ≠ 39) (hd : ¬ DigitOf base c) : parseLiteral t cs = .ub := by
  have key : ∀ (b : Int) (isDigit : Nat → Bool), isDigit c = false → checked t b isDigit body = .ub := by
    intro b isDigit hi
    unfold checked
    rw [if_neg]
    intro hall
    have := List.all_eq_true.mp hall c hm
    simp [hi, isDigitSep, hsep] at this
  cases h with
  | decimal h =>
    rw [parse_decimal t _ _ h]
    apply key
    cases hi : isDecimalDigit c with
    | false => rfl
    | true =>
      simp [isDecimalDigit] at hi
      exact absurd ⟨_, .dec hi.1 hi.2, by omega⟩ hd
  | octal h1 h2 h3 h4 =>
    rw [parse_octal t _ _ ⟨h1, h2, h3, h4⟩]
    apply key
    cases hi : isOctalDigit c with
    | false => rfl
    | true =>
      simp [isOctalDigit] at hi
      exact absurd ⟨_, .dec hi.1 (by omega), by omega⟩ hd
  | hex h =>
    have := key 16 isHexDigit (by
      cases hi : isHexDigit c with
      | false => rfl
      | true =>
        simp only [isHexDigit, Bool.or_eq_true, Bool.and_eq_true, decide_eq_true_eq] at hi
        rcases hi with hi | hi
        · exact absurd ⟨_, .dec hi.1 hi.2, by omega⟩ hd
        · rcases (lower_or c hc).mp hi with hi | hi
          · exact absurd ⟨_, .lower hi.1 hi.2, by omega⟩ hd
          · exact absurd ⟨_, .upper hi.1 hi.2, by omega⟩ hd)
    rcases h with rfl | rfl <;> exact this
  | binary h =>
    have := key 2 isBinaryDigit (by
      cases hi : isBinaryDigit c with
      | false => rfl
      | true =>
        simp [isBinaryDigit] at hi
        exact absurd ⟨_, .dec hi.1 (by omega), by omega⟩ hd)
    rcases h with rfl | rfl <;> exact this

/-- `0x1'F`. -/
example : Literal [48, 120, 49, 39, 70] 16 [49, 70] ∧ Value 16 [49, 70] 31 := by
  refine ⟨.hex (.inl rfl) (.sep (cs := [49]) (ds := [49]) (.one ⟨_, .dec (by decide) (by decide), by decide⟩) ⟨_, .upper (by decide) (by decide), by decide⟩), ?_⟩
  exact .cons (v := 1) (n := 15) (.dec (c := 49) (by decide) (by decide)) (.cons (v := 15) (n := 0) (.upper (c := 70) (by decide) (by decide)) .nil)
example : parseLiteral ⟨false, 32⟩ [48, 120, 49, 39, 70] = .ok 31 := by rfl
/-- `0x80000000` for an `int` -/
example : ∃ n, Literal [48, 120, 56, 48, 48, 48, 48, 48, 48, 48] 16 [56, 48, 48, 48, 48, 48, 48, 48] ∧
    Value 16 [56, 48, 48, 48, 48, 48, 48, 48] n ∧ 2 ^ (32 - 1) ≤ n := by
  have d8 : DigitVal 56 8 := .dec (c := 56) (by decide) (by decide)
  have d0 : DigitVal 48 0 := .dec (c := 48) (by decide) (by decide)
  have o8 : DigitOf 16 56 := ⟨8, d8, by decide⟩
  have o0 : DigitOf 16 48 := ⟨0, d0, by decide⟩
  have s : DigitSeq (DigitOf 16) [56, 48, 48, 48, 48, 48, 48, 48] [56, 48, 48, 48, 48, 48, 48, 48] :=
    .next (cs := [56, 48, 48, 48, 48, 48, 48]) (ds := [56, 48, 48, 48, 48, 48, 48]) (.next (cs := [56, 48, 48, 48, 48, 48])
      (ds := [56, 48, 48, 48, 48, 48]) (.next (cs := [56, 48, 48, 48, 48]) (ds := [56, 48, 48, 48, 48])
      (.next (cs := [56, 48, 48, 48]) (ds := [56, 48, 48, 48]) (.next (cs := [56, 48, 48]) (ds := [56, 48, 48])
      (.next (cs := [56, 48]) (ds := [56, 48]) (.next (cs := [56]) (ds := [56]) (.one o8) o0) o0) o0) o0) o0) o0) o0
  refine ⟨_, .hex (.inl rfl) s, .cons d8 (.cons d0
    (.cons d0 (.cons d0 (.cons d0 (.cons d0 (.cons d0 (.cons d0 .nil))))))), ?_⟩
  simp
/-- `1.5` -/
example : Split [49, 46, 53] 10 [49, 46, 53] ∧ ¬ DigitOf 10 46 :=
  ⟨.decimal (by decide), fun ⟨_, h, _⟩ => by cases h <;> omega⟩

/-! ## C80 -/

/-- The factor of a unit. -/
def Unit.factor : Unit → Nat
  | .k => 1000
  | .M => 1000000
  | .G => 1000000000
  | .ki => 1024
  | .Mi => 1048576
  | .Gi => 1073741824

theorem scale_eq (fs : List Nat) (n : Nat) (h : fs ≠ []) : scale fs n = n * fs.prod % 18446744073709551616 := by
  unfold scale
  generalize 18446744073709551616 = m
  induction fs generalizing n with
  | nil => exact absurd rfl h
  | cons f fs ih =>
    rw [List.foldl_cons, List.prod_cons, ← Nat.mul_assoc]
    cases fs with
    | nil => simp
    | cons g gs => rw [ih _ (by simp), Nat.mod_mul_mod]

theorem unitLiteral_eq (u : Unit) (n : Nat) : unitLiteral u n = n * u.factor % 18446744073709551616 := by
  have h1 : u.factors.prod = u.factor := by cases u <;> simp [Unit.factors, Unit.factor]
  have h2 : u.factors ≠ [] := by cases u <;> simp [Unit.factors]
  unfold unitLiteral
  rw [scale_eq _ _ h2, h1]

/-- **C80, partial.** A number with a unit is the number times the unit if that is below `2^64`.  Missing: larger products
are not rejected (`C80_overflow_violated`). -/
theorem C80_units_partial (u : Unit) (n : Nat) (h : n * u.factor < 18446744073709551616) : unitLiteral u n = n * u.factor := by
  rw [unitLiteral_eq, Nat.mod_eq_of_lt h]

/-- A product that does not fit silently becomes something else. -/
theorem C80_overflow_violated (u : Unit) (n : Nat) (h : 18446744073709551616 ≤ n * u.factor) :
    unitLiteral u n ≠ n * u.factor ∧ unitLiteral u n < n * u.factor := by
  rw [unitLiteral_eq]
  have := Nat.mod_lt (n * u.factor) (show 0 < 18446744073709551616 by omega)
  exact ⟨by omega, by omega⟩

/-- A bit position or length keeps its value below `2^32` and is cut off silently from there on. -/
theorem C80_bit_literals (n : Nat) : (n < 2 ^ 32 → bitLiteral n = n) ∧ (2 ^ 32 ≤ n → bitLiteral n ≠ n) := by
  unfold bitLiteral
  constructor
  · intro h; exact Nat.mod_eq_of_lt (by omega)
  · intro h; have := Nat.mod_lt n (show 0 < 4294967296 by omega); omega

example : 18446744073709551616 ≤ 20000000000000000 * Unit.k.factor ∧ 5 * Unit.Gi.factor < 18446744073709551616 := by
  simp only [Unit.factor, Nat.reduceMul, Nat.reduceLeDiff, Nat.reduceLT, and_self]

end Verif.Udl
