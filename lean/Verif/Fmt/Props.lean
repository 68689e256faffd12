import Verif.Fmt.Model
import Verif.CtString.Props
import Mathlib.Tactic.NormNum
import Mathlib.Tactic.IntervalCases
import Mathlib.Data.List.Induction

/-!
# Freestanding integer formatting (C58)
-/

namespace Verif.Fmt

open CtString

/-! ## Specification -/

/-- The numeral of an integer: a minus sign for negative values, and the digits of its absolute value. -/
def numeral (base : Nat) (v : Int) : List Char := (if v < 0 then ['-'] else []) ++ Nat.toDigits base v.natAbs

/-- The value of a hexadecimal digit. -/
def digitVal (c : Char) : Option Nat :=
  if '0' ≤ c ∧ c ≤ '9' then some (c.toNat - 48) else if 'a' ≤ c ∧ c ≤ 'f' then some (c.toNat - 87) else none

/-- Reading a string of digits in a base. -/
def readNat (base : Nat) : Nat → List Char → Option Nat
  | acc, [] => some acc
  | acc, c :: cs =>
    match digitVal c with
    | some d => if d < base then readNat base (acc * base + d) cs else none
    | none => none

/-- Reading a numeral with an optional minus sign. -/
def readInt (base : Nat) : List Char → Option Int
  | [] => none
  | '-' :: cs => (readNat base 0 cs).map (fun n : Nat => -(n : Int))
  | cs => (readNat base 0 cs).map (fun n : Nat => (n : Int))

/-! ## Digits -/

theorem digitVal_digitChar {d : Nat} (h : d < 16) : digitVal (Nat.digitChar d) = some d := by
  interval_cases d <;> rfl

theorem readNat_append (base : Nat) (l m : List Char) (acc : Nat) :
    readNat base acc (l ++ m) = (readNat base acc l).bind (fun a => readNat base a m) := by
  induction l generalizing acc with
  | nil => rfl
  | cons c cs ih =>
    rw [List.cons_append, readNat, readNat]
    cases digitVal c with
    | none => rfl
    | some d =>
      simp only
      by_cases h : d < base
      · rw [if_pos h, if_pos h]; exact ih _
      · rw [if_neg h, if_neg h]; rfl

theorem readNat_toDigits {base : Nat} (h1 : 1 < base) (h2 : base ≤ 16) (n : Nat) :
    readNat base 0 (Nat.toDigits base n) = some n := by
  induction n using Nat.strongRecOn with
  | _ n ih =>
    rw [Nat.toDigits_eq_if h1]
    split
    · rename_i h
      rw [readNat, digitVal_digitChar (by omega)]
      simp only
      rw [if_pos h]; simp [readNat]
    · rename_i h
      have hlt : n % base < base := Nat.mod_lt _ (by omega)
      rw [readNat_append, ih (n / base) (Nat.div_lt_self (by omega) h1), Option.bind_some, readNat,
        digitVal_digitChar (by omega)]
      simp only
      rw [if_pos hlt, readNat, Nat.div_add_mod']

theorem toDigits_head {base : Nat} (h1 : 1 < base) (h2 : base ≤ 16) (n : Nat) :
    ∀ c ∈ Nat.toDigits base n, c ≠ '-' ∧ c ≠ nul := by
  induction n using Nat.strongRecOn with
  | _ n ih =>
    have hd : ∀ d < 16, Nat.digitChar d ≠ '-' ∧ Nat.digitChar d ≠ nul := by decide
    rw [Nat.toDigits_eq_if h1]
    split
    · rename_i h
      intro c hc
      rw [List.mem_singleton] at hc
      subst hc; exact hd _ (by omega)
    · rename_i h
      intro c hc
      rw [List.mem_append, List.mem_singleton] at hc
      rcases hc with hc | rfl
      · exact ih _ (Nat.div_lt_self (by omega) h1) c hc
      · exact hd _ (Nat.lt_of_lt_of_le (Nat.mod_lt _ (by omega)) h2)

/-- **C58, reading back.** Reading the numeral gives the value back. -/
theorem C58_numeral_reads_back {base : Nat} (h1 : 1 < base) (h2 : base ≤ 16) (v : Int) :
    readInt base (numeral base v) = some v := by
  unfold numeral
  by_cases hv : v < 0
  · rw [if_pos hv]
    show (readNat base 0 (Nat.toDigits base v.natAbs)).map _ = _
    rw [readNat_toDigits h1 h2, Option.map_some]
    congr 1; omega
  · rw [if_neg hv, List.nil_append]
    have hne : Nat.toDigits base v.natAbs ≠ [] := Nat.toDigits_ne_nil
    have := toDigits_head h1 h2 v.natAbs
    have e := readNat_toDigits h1 h2 v.natAbs
    generalize Nat.toDigits base v.natAbs = l at *
    cases l with
    | nil => exact absurd rfl hne
    | cons c cs =>
      have hc : c ≠ '-' := (this c (by simp)).1
      unfold readInt
      split
      · rename_i h; cases h
      · rename_i h; injection h with h _; exact absurd h hc
      · rw [e, Option.map_some]; congr 1; omega

/-- The digits the loop produces, least significant first. -/
def rdigits (base : Nat) (i : Int) : List Char := if i = 0 then [] else (Nat.toDigits base i.natAbs).reverse

theorem rdigits_step {base : Nat} (h1 : 1 < base) {i : Int} (hi : i ≠ 0) :
    rdigits base i = Nat.digitChar (i.natAbs % base) :: rdigits base (i.tdiv base) := by
  have e : (i.tdiv base).natAbs = i.natAbs / base := by rw [Int.natAbs_tdiv]; rfl
  have e0 : i.tdiv base = 0 ↔ i.natAbs < base := by
    rw [← Int.natAbs_eq_zero, e, Nat.div_eq_zero_iff]; omega
  unfold rdigits
  rw [if_neg hi, Nat.toDigits_eq_if h1]
  split
  · rename_i h
    rw [if_pos (e0.mpr h), Nat.mod_eq_of_lt h]; rfl
  · rename_i h
    rw [if_neg (fun h' => h (e0.mp h')), e]; simp

theorem conv_base {w : Nat} {s : Bool} (hw : 8 ≤ w) {base : Nat} (hb : base ≤ 16) : (ITy.int w s).conv base = base := by
  have h2 : (2 : Int) ^ 8 ≤ 2 ^ w := by
    have := Nat.pow_le_pow_right (n := 2) (by omega) hw
    exact_mod_cast this
  have h3 : (2 : Nat) ^ 8 ≤ 2 ^ w := Nat.pow_le_pow_right (by omega) hw
  unfold ITy.conv
  cases s
  · simp only [Bool.false_eq_true, if_false]
    rw [Int.emod_eq_of_lt (by omega) (by omega)]
  · simp only [if_true]
    apply Int.bmod_eq_of_le <;> omega

theorem div_ok {w : Nat} {s : Bool} {i : Int} {base : Nat} (hb : 1 < base) (h : (ITy.int w s).InRange i) :
    (ITy.int w s).div i base = .ok (i.tdiv base) ∧ (ITy.int w s).InRange (i.tdiv base) := by
  have h1 : (i.tdiv base).natAbs ≤ i.natAbs := Int.natAbs_tdiv_le_natAbs i base
  have h2 : 0 ≤ i → 0 ≤ i.tdiv base := fun h => Int.tdiv_nonneg h (by omega)
  have h3 : i ≤ 0 → i.tdiv base ≤ 0 := fun h => by
    have a := Int.tdiv_nonneg (a := -i) (b := base) (by omega) (by omega)
    rw [Int.neg_tdiv] at a; omega
  have hr : (ITy.int w s).InRange (i.tdiv base) := by
    unfold ITy.InRange ITy.lo ITy.hi at *
    have : (0 : Int) < 2 ^ (w - 1) := by positivity
    have : (0 : Int) < 2 ^ w := by positivity
    cases s <;> simp only [Bool.false_eq_true, if_false, if_true] at *
    · constructor
      · exact h2 h.1
      · have := h2 h.1; omega
    · by_cases hi : 0 ≤ i
      · have := h2 hi; omega
      · have := h3 (by omega); omega
  refine ⟨?_, hr⟩
  unfold ITy.div
  rw [if_neg (by omega), if_pos hr]

theorem sizeLoop_eq {w : Nat} {s : Bool} (hw : 8 ≤ w) {base : Nat} (h1 : 1 < base) (h2 : base ≤ 16) (fuel : Nat) (i : Int)
    (hi : (ITy.int w s).InRange i) (hf : (rdigits base i).length < fuel) (sz : Nat) :
    sizeLoop (.int w s) base fuel i sz = .ok (sz + (rdigits base i).length) := by
  induction fuel generalizing i sz with
  | zero => omega
  | succ fuel ih =>
    unfold sizeLoop
    by_cases h0 : i = 0
    · rw [if_pos h0]; simp [rdigits, h0]
    · rw [if_neg h0, conv_base hw h2, (div_ok h1 hi).1, Outcome.ok_bind]
      have e := rdigits_step h1 h0
      rw [e, List.length_cons] at hf ⊢
      rw [ih _ (div_ok h1 hi).2 (by omega)]
      congr 1; omega

theorem put_eq (pre : List Char) (x c : Char) (post : List Char) :
    put (pre ++ x :: post, pre.length) c = .ok (pre ++ c :: post, pre.length + 1) := by
  unfold put
  rw [arrSet_of_lt (by simp)]
  simp

theorem toDigit_eq {d : Nat} (h : d < 16) : toDigit d = .ok (Nat.digitChar d) := by
  interval_cases d <;> rfl

theorem digitLoop_eq {w : Nat} {s : Bool} (hw : 8 ≤ w) {base : Nat} (h1 : 1 < base) (h2 : base ≤ 16) (fuel : Nat) (i : Int)
    (hi : (ITy.int w s).InRange i) (hf : (rdigits base i).length < fuel) (pre mid post : List Char)
    (hm : mid.length = (rdigits base i).length) :
    digitLoop (.int w s) base fuel i (pre ++ (mid ++ post), pre.length) =
      .ok (pre ++ (rdigits base i ++ post), pre.length + (rdigits base i).length) := by
  induction fuel generalizing i pre mid with
  | zero => omega
  | succ fuel ih =>
    unfold digitLoop
    by_cases h0 : i = 0
    · rw [if_pos h0]
      have e : rdigits base i = [] := by simp [rdigits, h0]
      rw [e] at hm ⊢
      rw [List.length_nil] at hm
      rw [List.eq_nil_of_length_eq_zero hm]; rfl
    · have e := rdigits_step h1 h0
      rw [e, List.length_cons] at hf hm
      obtain ⟨m, ms, rfl⟩ : ∃ m ms, mid = m :: ms := by
        cases mid with
        | nil => simp at hm
        | cons m ms => exact ⟨m, ms, rfl⟩
      have hmod : (i.tmod base).natAbs = i.natAbs % base := by rw [Int.natAbs_tmod]; rfl
      rw [if_neg h0, conv_base hw h2, ITy.mod, if_neg (by omega), Outcome.ok_bind, hmod,
        toDigit_eq (Nat.lt_of_lt_of_le (Nat.mod_lt _ (by omega)) h2), Outcome.ok_bind, (div_ok h1 hi).1, Outcome.ok_bind,
        List.cons_append, put_eq, Outcome.ok_bind]
      have := ih _ (div_ok h1 hi).2 (by omega) (pre ++ [Nat.digitChar (i.natAbs % base)]) ms (by simpa using hm)
      rw [List.length_append, List.append_assoc] at this
      rw [show pre ++ Nat.digitChar (i.natAbs % base) :: (ms ++ post) =
        pre ++ ([Nat.digitChar (i.natAbs % base)] ++ (ms ++ post)) from rfl]
      simp only [List.length_singleton] at this
      rw [this, e]
      simp; omega

theorem revLoop_eq (n : Nat) (pre mid post : List Char) (hn : mid.length < n) :
    revLoop n (pre ++ (mid ++ post)) pre.length (pre.length + mid.length - 1) = .ok (pre ++ (mid.reverse ++ post)) := by
  induction n generalizing pre mid post with
  | zero => omega
  | succ n ih =>
    unfold revLoop
    rcases mid with _ | ⟨x, m⟩
    · rw [if_neg (by simp)]; rfl
    · rcases List.eq_nil_or_concat m with rfl | ⟨m, y, rfl⟩
      · rw [if_neg (by simp)]; rfl
      · rw [List.concat_eq_append] at hn ⊢
        have el : pre.length + (x :: (m ++ [y])).length - 1 = pre.length + m.length + 1 := by simp; omega
        rw [el, if_pos (by omega)]
        have g1 : arrGet (pre ++ (x :: (m ++ [y]) ++ post)) pre.length = .ok x := by
          rw [arrGet_ok]; simp
        have g2 : arrGet (pre ++ (x :: (m ++ [y]) ++ post)) (pre.length + m.length + 1) = .ok y := by
          rw [arrGet_ok, List.getElem?_append_right (by omega), show pre.length + m.length + 1 - pre.length = m.length + 1 by omega]
          simp
        have s1 : arrSet (pre ++ (x :: (m ++ [y]) ++ post)) pre.length y = .ok (pre ++ (y :: (m ++ [y]) ++ post)) := by
          rw [arrSet_of_lt (by simp)]; simp
        have s2 : arrSet (pre ++ (y :: (m ++ [y]) ++ post)) (pre.length + m.length + 1) x =
            .ok (pre ++ (y :: (m ++ [x]) ++ post)) := by
          rw [arrSet_of_lt (by simp; omega), List.set_append_right _ _ (by omega),
            show pre.length + m.length + 1 - pre.length = m.length + 1 by omega]
          simp
        rw [g1, Outcome.ok_bind, g2, Outcome.ok_bind, s1, Outcome.ok_bind, s2, Outcome.ok_bind]
        have := ih (pre ++ [y]) m (x :: post) (by simp at hn; omega)
        rw [List.length_append, List.length_singleton] at this
        rw [show pre.length + m.length + 1 - 1 = pre.length + 1 + m.length - 1 by omega]
        have e : pre ++ (y :: (m ++ [x]) ++ post) = pre ++ [y] ++ (m ++ x :: post) := by simp
        rw [e, this]
        simp

theorem putAll_eq (cs pre mid post : List Char) (h : mid.length = cs.length) :
    putAll (pre ++ (mid ++ post), pre.length) cs = .ok (pre ++ (cs ++ post), pre.length + cs.length) := by
  induction cs generalizing pre mid with
  | nil => rw [List.eq_nil_of_length_eq_zero h]; rfl
  | cons c cs ih =>
    obtain ⟨m, ms, rfl⟩ : ∃ m ms, mid = m :: ms := by
      cases mid with
      | nil => simp at h
      | cons m ms => exact ⟨m, ms, rfl⟩
    rw [putAll, List.cons_append, put_eq, Outcome.ok_bind]
    have := ih (pre ++ [c]) ms (by simpa using h)
    rw [List.length_append, List.append_assoc] at this
    simp only [List.length_singleton] at this
    rw [show pre ++ c :: (ms ++ post) = pre ++ ([c] ++ (ms ++ post)) from rfl, this]
    simp; omega

theorem putCstr_eq (b : List Char × Nat) (cs rest : List Char) (h : nul ∉ cs) :
    putCstr b (cs ++ nul :: rest) = putAll b cs := by
  induction cs generalizing b with
  | nil => simp [putCstr, putAll]
  | cons c cs ih =>
    rw [List.mem_cons, not_or] at h
    rw [List.cons_append, putCstr, if_neg (fun e => h.1 e.symm), putAll]
    congr 1; funext b'; exact ih b' h.2

/-! ## The values -/

/-- The text of a value. -/
def ValText (base : Nat) : Val → List Char → Prop
  | .range cs, l => l = cs
  | .cstr a, l => nul ∉ l ∧ ∃ rest, a = l ++ nul :: rest
  | .chr c, l => l = [c]
  | .num t v, l => ∃ w s, t = .int w s ∧ 8 ≤ w ∧ t.InRange v ∧ l = numeral base v

/-- Enough fuel for a value: more than the bits of its type. -/
def FuelFor (fuel : Nat) : Val → Prop
  | .num (.int w _) _ => w < fuel
  | _ => True

theorem rdigits_length {w : Nat} {s : Bool} (hw : 8 ≤ w) {base : Nat} (h1 : 10 ≤ base) {i : Int}
    (hi : (ITy.int w s).InRange i) : (rdigits base i).length ≤ w := by
  unfold rdigits
  split
  · simp
  · rw [List.length_reverse, Nat.length_toDigits_le_iff (by omega) (by omega)]
    have a1 : i.natAbs ≤ 2 ^ w := by
      have e : (2 : Int) ^ w = 2 * 2 ^ (w - 1) := by
        conv_lhs => rw [show w = (w - 1) + 1 by omega, pow_succ]
        omega
      have : (0 : Int) < 2 ^ (w - 1) := by positivity
      have c : ((2 ^ w : Nat) : Int) = 2 ^ w := by push_cast; rfl
      have hi' : -(2 ^ (w - 1) * 2 : Int) ≤ i ∧ i ≤ 2 ^ w := by
        cases s with
        | false =>
          have h : (0 : Int) ≤ i ∧ i ≤ 2 ^ w - 1 := hi
          omega
        | true =>
          have h : -(2 ^ (w - 1) : Int) ≤ i ∧ i ≤ 2 ^ (w - 1) - 1 := hi
          omega
      omega
    have a2 : 2 ^ w < base ^ w := Nat.pow_lt_pow_left (by omega) (by omega)
    omega

theorem valSize_eq {base fuel len : Nat} (hb : base = 10 ∨ base = 16) {v : Val} {l : List Char} (h : ValText base v l)
    (hf : FuelFor fuel v) : valSize fuel ⟨len, base⟩ v = .ok l.length := by
  cases v with
  | range cs => rw [ValText] at h; subst h; rfl
  | cstr a =>
    obtain ⟨hn, rest, rfl⟩ := h
    have : ∀ (l : List Char) k, nul ∉ l → cstrSize (l ++ nul :: rest) k = .ok (k + l.length) := by
      intro l
      induction l with
      | nil => intro k _; simp [cstrSize]
      | cons c cs ih =>
        intro k hc
        rw [List.mem_cons, not_or] at hc
        rw [List.cons_append, cstrSize, if_neg (fun e => hc.1 e.symm), ih _ hc.2, List.length_cons]
        congr 1; omega
    rw [valSize, this l 0 hn, Nat.zero_add]
  | chr c => rw [ValText] at h; subst h; rfl
  | num t i =>
    obtain ⟨w, s, rfl, hw, hr, rfl⟩ := h
    unfold FuelFor at hf
    rw [valSize]
    by_cases h0 : i = 0
    · subst h0; rw [if_pos rfl]; rcases hb with rfl | rfl <;> rfl
    · rw [if_neg h0]
      simp only
      rw [sizeLoop_eq hw (by omega) (by omega) fuel i hr
        (Nat.lt_of_le_of_lt (rdigits_length hw (by omega) hr) hf)]
      congr 1
      unfold numeral rdigits
      rw [if_neg h0]
      split <;> simp; omega

theorem valTo_eq {base fuel len : Nat} (hb : base = 10 ∨ base = 16) {v : Val} {l : List Char} (h : ValText base v l)
    (hf : FuelFor fuel v) (pre mid post : List Char) (hm : mid.length = l.length) :
    valTo fuel ⟨len, base⟩ (pre ++ (mid ++ post), pre.length) v = .ok (pre ++ (l ++ post), pre.length + l.length) := by
  cases v with
  | range cs => rw [ValText] at h; subst h; exact putAll_eq _ _ _ _ hm
  | cstr a =>
    obtain ⟨hn, rest, rfl⟩ := h
    rw [valTo, putCstr_eq _ _ _ hn]; exact putAll_eq _ _ _ _ hm
  | chr c =>
    rw [ValText] at h; subst h
    have := putAll_eq [c] pre mid post hm
    rw [putAll] at this
    rw [valTo]
    cases e : put (pre ++ (mid ++ post), pre.length) c with
    | ok b => rw [e, Outcome.ok_bind, putAll] at this; exact this
    | ub => rw [e] at this; cases this
    | panic => rw [e] at this; cases this
  | num t i =>
    obtain ⟨w, s, rfl, hw, hr, rfl⟩ := h
    unfold FuelFor at hf
    rw [valTo]
    by_cases h0 : i = 0
    · subst h0
      rw [if_pos rfl]
      have e : numeral base 0 = ['0'] := by rcases hb with rfl | rfl <;> rfl
      rw [e] at hm ⊢
      obtain ⟨m, rfl⟩ := List.length_eq_one_iff.mp hm
      exact put_eq pre m '0' post
    · rw [if_neg h0]
      simp only
      have hlen := Nat.lt_of_le_of_lt (rdigits_length hw (base := base) (by omega) hr) hf
      have hpos : 0 < (rdigits base i).length := by rw [rdigits_step (by omega) h0]; simp
      have hnum : numeral base i = (if i < 0 then ['-'] else []) ++ (rdigits base i).reverse := by
        unfold numeral rdigits; rw [if_neg h0, List.reverse_reverse]
      rw [hnum] at hm ⊢
      by_cases hneg : i < 0
      · rw [if_pos hneg] at hm ⊢
        rw [if_pos hneg]
        obtain ⟨m, ms, rfl⟩ : ∃ m ms, mid = m :: ms := by
          cases mid with
          | nil => simp at hm
          | cons m ms => exact ⟨m, ms, rfl⟩
        rw [List.cons_append, put_eq, Outcome.ok_bind]
        have := digitLoop_eq hw (by omega) (by omega) fuel i hr hlen (pre ++ ['-']) ms post (by simpa using hm)
        rw [List.length_append, List.append_assoc] at this
        simp only [List.length_singleton] at this
        rw [show pre ++ '-' :: (ms ++ post) = pre ++ (['-'] ++ (ms ++ post)) from rfl, this, Outcome.ok_bind]
        have hr := revLoop_eq fuel (pre ++ ['-']) (rdigits base i) post hlen
        rw [List.length_append] at hr
        simp only [List.length_singleton] at hr
        simp only
        rw [hr]
        simp; omega
      · rw [if_neg hneg] at hm ⊢
        rw [if_neg hneg, Outcome.ok_bind, digitLoop_eq hw (by omega) (by omega) fuel i hr hlen pre mid post (by simpa using hm),
          Outcome.ok_bind]
        simp only
        rw [revLoop_eq fuel pre (rdigits base i) post hlen]
        simp

/-! ## The property -/

/-- The two supported replacement fields and their bases. -/
def Field (field : List Char) (base : Nat) : Prop := (field = ['{', '}'] ∧ base = 10) ∨ (field = ['{', ':', 'x', '}'] ∧ base = 16)

theorem toBrace_eq {text r : List Char} (h : '{' ∉ text) : toBrace (text ++ '{' :: r) = .ok ('{' :: r) := by
  induction text with
  | nil => simp [toBrace]
  | cons c cs ih =>
    rw [List.mem_cons, not_or] at h
    rw [List.cons_append, toBrace, if_neg (fun e => h.1 e.symm), ih h.2]

theorem parse_eq {field : List Char} {base : Nat} (hfi : Field field base) {text tail : List Char} (h : '{' ∉ text) :
    parseSpec (text ++ (field ++ tail)) = .ok (some ⟨field.length, base⟩) := by
  unfold parseSpec
  rcases hfi with ⟨rfl, rfl⟩ | ⟨rfl, rfl⟩
  · rw [List.cons_append, toBrace_eq h]; rfl
  · rw [List.cons_append, toBrace_eq h]; rfl

theorem copyToBrace_eq (text : List Char) (h : '{' ∉ text) (pre mid post r : List Char) (hm : mid.length = text.length) :
    copyToBrace (pre ++ (mid ++ post), pre.length) (text ++ '{' :: r) =
      .ok ((pre ++ (text ++ post), pre.length + text.length), '{' :: r) := by
  induction text generalizing pre mid with
  | nil => rw [List.eq_nil_of_length_eq_zero hm]; simp [copyToBrace]
  | cons c cs ih =>
    rw [List.mem_cons, not_or] at h
    obtain ⟨m, ms, rfl⟩ : ∃ m ms, mid = m :: ms := by
      cases mid with
      | nil => simp at hm
      | cons m ms => exact ⟨m, ms, rfl⟩
    show copyToBrace (pre ++ m :: (ms ++ post), pre.length) (c :: (cs ++ '{' :: r)) = _
    rw [copyToBrace, if_neg (fun e => h.1 e.symm), put_eq, Outcome.ok_bind]
    have := ih h.2 (pre ++ [c]) ms (by simpa using hm)
    rw [List.length_append, List.append_assoc] at this
    simp only [List.length_singleton] at this
    rw [show pre ++ c :: (ms ++ post) = pre ++ ([c] ++ (ms ++ post)) from rfl, this]
    simp; omega

/-- **C58.** For a format string `text{}tail` or `text{:x}tail` and a value of any signed or unsigned type of at
least 8 bits (or a string, C string or character): `formatted_size` is the length of the text, the value's
numeral (text) and the tail, and formatting into a buffer of that size gives exactly these characters and
keeps the terminator. -/
theorem C58_format_partial {fuel base : Nat} {field text tail : List Char} (hfi : Field field base) (htext : '{' ∉ text)
    (htail : nul ∉ tail) {fmt : CtString} (hfmt : Holds fmt (text ++ (field ++ tail))) {v : Val} {l : List Char}
    (h : ValText base v l) (hf : FuelFor fuel v) :
    formattedSize fuel fmt v = .ok (some (text ++ (l ++ tail)).length) ∧
    ∃ s, performFormat fuel fmt v = .ok (some s) ∧ Holds s (text ++ (l ++ tail)) := by
  have hb : base = 10 ∨ base = 16 := by rcases hfi with ⟨_, rfl⟩ | ⟨_, rfl⟩ <;> simp
  have hsz := size_of hfmt
  rw [Holds] at hfmt
  have hp : parseSpec fmt = .ok (some ⟨field.length, base⟩) := by
    rw [hfmt, List.append_assoc, List.append_assoc]; exact parse_eq hfi htext
  have h1 : formattedSize fuel fmt v = .ok (some (text ++ (l ++ tail)).length) := by
    unfold formattedSize
    rw [hp, Outcome.ok_bind]
    simp only
    rw [valSize_eq hb h hf, Outcome.ok_bind, hsz, Outcome.pure_eq_ok]
    congr 2
    simp only [List.length_append]; omega
  refine ⟨h1, (text ++ (l ++ tail)) ++ [nul], ?_, rfl⟩
  unfold performFormat
  rw [h1, Outcome.ok_bind]
  simp only
  unfold formatTo
  rw [hp, Outcome.ok_bind]
  simp only
  have ez : zeroed ((text ++ (l ++ tail)).length + 1) = [] ++ (List.replicate text.length nul ++
      (List.replicate l.length nul ++ (List.replicate tail.length nul ++ [nul]))) := by
    rw [List.nil_append, ← List.replicate_one, List.replicate_append_replicate, List.replicate_append_replicate,
      List.replicate_append_replicate]
    simp [zeroed]; omega
  obtain ⟨r, er⟩ : ∃ r, field = '{' :: r := by rcases hfi with ⟨rfl, _⟩ | ⟨rfl, _⟩ <;> exact ⟨_, rfl⟩
  have ef : fmt = text ++ '{' :: (r ++ tail ++ [nul]) := by rw [hfmt, er]; simp
  have e1 := copyToBrace_eq text htext [] (List.replicate text.length nul)
    (List.replicate l.length nul ++ (List.replicate tail.length nul ++ [nul])) (r ++ tail ++ [nul]) (by simp)
  simp only [List.length_nil, Nat.zero_add] at e1
  rw [ez, ef, e1, Outcome.ok_bind]
  simp only [List.nil_append]
  rw [valTo_eq hb h hf text _ _ (by simp), Outcome.ok_bind]
  have e2 : ('{' :: (r ++ tail ++ [nul])).drop field.length = tail ++ nul :: [] := by
    rw [show '{' :: (r ++ tail ++ [nul]) = field ++ (tail ++ [nul]) by rw [er]; simp, List.drop_left]
  rw [e2, putCstr_eq _ _ _ htail]
  have e3 := putAll_eq tail (text ++ l) (List.replicate tail.length nul) [nul] (by simp)
  rw [List.length_append, List.append_assoc] at e3
  rw [e3, Outcome.ok_bind]
  simp

/-- **C58, integers.** The special case of integers, with the numeral and its reading spelled out: the buffer
holds the text, a numeral that reads back as the value, and the tail. -/
theorem C58_format_integer_partial {fuel base : Nat} {field text tail : List Char} (hfi : Field field base) (htext : '{' ∉ text)
    (htail : nul ∉ tail) {fmt : CtString} (hfmt : Holds fmt (text ++ (field ++ tail))) {w : Nat} {sgn : Bool} (hw : 8 ≤ w)
    {v : Int} (hv : (ITy.int w sgn).InRange v) (hf : w < fuel) :
    ∃ s num, performFormat fuel fmt (.num (.int w sgn) v) = .ok (some s) ∧ Holds s (text ++ (num ++ tail)) ∧
      formattedSize fuel fmt (.num (.int w sgn) v) = .ok (some (text.length + num.length + tail.length)) ∧
      readInt base num = some v ∧ (num.head? = some '-' ↔ v < 0) ∧ (num.getLast? = some '0' ∧ num.length = 1 ↔ v = 0) := by
  have hb : base = 10 ∨ base = 16 := by rcases hfi with ⟨_, rfl⟩ | ⟨_, rfl⟩ <;> simp
  obtain ⟨h1, s, h2, h3⟩ := C58_format_partial hfi htext htail hfmt (v := .num (.int w sgn) v) (l := numeral base v)
    ⟨w, sgn, rfl, hw, hv, rfl⟩ hf
  have hread := C58_numeral_reads_back (base := base) (by omega) (by omega) v
  refine ⟨s, numeral base v, h2, h3, ?_, hread, ?_, ?_⟩
  · rw [h1]; congr 2; simp only [List.length_append]; omega
  · unfold numeral
    by_cases hneg : v < 0
    · simp [hneg]
    · rw [if_neg hneg, List.nil_append]
      constructor
      · intro h
        have hm : '-' ∈ Nat.toDigits base v.natAbs := List.mem_of_mem_head? (by rw [h]; rfl)
        exact absurd rfl (toDigits_head (by omega) (by omega) _ _ hm).1
      · intro h; exact absurd h hneg
  · constructor
    · rintro ⟨ha, hb'⟩
      obtain ⟨c, hc⟩ := List.length_eq_one_iff.mp hb'
      rw [hc] at ha hread
      simp at ha
      subst ha
      rcases hb with rfl | rfl
      · have e : readInt 10 ['0'] = some 0 := by decide
        rw [e] at hread; injection hread with h; exact h.symm
      · have e : readInt 16 ['0'] = some 0 := by decide
        rw [e] at hread; injection hread with h; exact h.symm
    · rintro rfl
      rcases hb with rfl | rfl <;> decide

/-- **C58 fails for `bool`.** The base is converted to `bool`, so the loops divide by one and never end: `true`
cannot be formatted. -/
theorem C58_bool_violated (fuel : Nat) {base : Nat} {field text tail : List Char} (hfi : Field field base) (htext : '{' ∉ text)
    {fmt : CtString} (hfmt : Holds fmt (text ++ (field ++ tail))) :
    formattedSize fuel fmt (.num .bool 1) = .ub := by
  have hb : base = 10 ∨ base = 16 := by rcases hfi with ⟨_, rfl⟩ | ⟨_, rfl⟩ <;> simp
  rw [Holds] at hfmt
  have hp : parseSpec fmt = .ok (some ⟨field.length, base⟩) := by
    rw [hfmt, List.append_assoc, List.append_assoc]; exact parse_eq hfi htext
  have hl : ∀ fuel sz, sizeLoop .bool base fuel 1 sz = .ub := by
    intro fuel
    induction fuel with
    | zero => intro sz; rfl
    | succ fuel ih =>
      intro sz
      have : ITy.bool.div 1 (ITy.bool.conv base) = .ok 1 := by
        have : ITy.bool.conv base = 1 := by
          simp only [ITy.conv]; rw [if_neg (by omega)]
        rw [this]; decide
      rw [sizeLoop, if_neg (by decide), this, Outcome.ok_bind, ih]
  unfold formattedSize
  rw [hp, Outcome.ok_bind]
  simp only
  rw [valSize, if_neg (by decide), hl]
  rfl

/-- Any other specifier is rejected, and a text with an escaped brace before the field is too. -/
theorem C58_specifier_rejected {text r : List Char} (h : '{' ∉ text) {c : Char} (hc : c ≠ '}') (hc' : c ≠ ':') (fuel : Nat)
    (v : Val) : formattedSize fuel (text ++ '{' :: c :: r) v = .ok none := by
  unfold formattedSize parseSpec
  rw [toBrace_eq h, Outcome.ok_bind]
  simp [hc, hc']

/-- **C58, specifiers.** Of the format strings with an opening brace exactly those are accepted whose first opening
brace begins `{}` or `{:x}`; every other specifier (including an unclosed one and an escaped brace) fails the
static assertion, and a format string without an opening brace does not compile. -/
theorem C58_specifiers (fuel : Nat) {fmt : CtString} {v : Val} :
    (∀ {text r : List Char}, '{' ∉ text → Holds fmt (text ++ '{' :: r) →
      (∃ s, parseSpec fmt = .ok s ∧ (s.isSome ↔ ['}'] <+: r ∨ [':', 'x', '}'] <+: r)) ∧
      (¬ (['}'] <+: r ∨ [':', 'x', '}'] <+: r) →
        formattedSize fuel fmt v = .ok none ∧ performFormat fuel fmt v = .ok none)) ∧
    (∀ {text : List Char}, '{' ∉ text → Holds fmt text →
      formattedSize fuel fmt v = .ub ∧ performFormat fuel fmt v = .ub) := by
  constructor
  · intro text r ht hfmt
    have hp : ∃ s, parseSpec fmt = .ok s ∧ (s.isSome ↔ ['}'] <+: r ∨ [':', 'x', '}'] <+: r) := by
      rw [Holds] at hfmt
      unfold parseSpec
      rw [hfmt, List.append_assoc, List.cons_append, toBrace_eq ht, Outcome.ok_bind, List.drop_succ_cons, List.drop_zero]
      cases r with
      | nil => exact ⟨none, rfl, by simp⟩
      | cons c r =>
        by_cases h1 : c = '}'
        · subst h1; exact ⟨some ⟨2, 10⟩, rfl, by simp⟩
        · by_cases h2 : c = ':'
          · subst h2
            cases r with
            | nil => exact ⟨none, rfl, by simp⟩
            | cons d r =>
              by_cases h3 : d = 'x'
              · subst h3
                cases r with
                | nil => exact ⟨none, rfl, by simp⟩
                | cons e r =>
                  by_cases h4 : e = '}'
                  · subst h4; exact ⟨some ⟨4, 16⟩, rfl, by simp⟩
                  · exact ⟨none, by simp [h4], by simp [Ne.symm h4]⟩
              · exact ⟨none, by simp [h3], by simp [Ne.symm h3]⟩
          · exact ⟨none, by simp [h1, h2], by simp [Ne.symm h1, Ne.symm h2]⟩
    refine ⟨hp, fun hno => ?_⟩
    obtain ⟨s, hs, hi⟩ := hp
    have hn : s = none := by
      cases s with
      | none => rfl
      | some s => exact absurd (hi.mp rfl) hno
    subst hn
    have hz : formattedSize fuel fmt v = .ok none := by unfold formattedSize; rw [hs]; rfl
    exact ⟨hz, by unfold performFormat; rw [hz]; rfl⟩
  · intro text ht hfmt
    have : ∀ l : List Char, '{' ∉ l → toBrace l = .ub := by
      intro l
      induction l with
      | nil => intro _; rfl
      | cons c l ih =>
        intro h
        rw [List.mem_cons, not_or] at h
        rw [toBrace, if_neg (fun e => h.1 e.symm), ih h.2]
    have hz : formattedSize fuel fmt v = .ub := by
      unfold formattedSize parseSpec
      rw [Holds] at hfmt
      rw [hfmt, this _ (by rw [List.mem_append, not_or]; exact ⟨ht, by decide⟩)]
      rfl
    exact ⟨hz, by unfold performFormat; rw [hz]; rfl⟩

/-- **C58, C strings without an end.** If the array of a C string argument has no NUL character, it is read past its end, for the size
and for the text, whatever the format string and the buffer. -/
theorem C58_unterminated_undefined (fuel : Nat) {base : Nat} {field text tail : List Char} (hfi : Field field base) (htext : '{' ∉ text)
    {fmt : CtString} (hfmt : Holds fmt (text ++ (field ++ tail))) (a : List Char) (ha : nul ∉ a) (buf : List Char) :
    formattedSize fuel fmt (.cstr a) = .ub ∧ performFormat fuel fmt (.cstr a) = .ub ∧ formatTo fuel buf fmt (.cstr a) = .ub := by
  rw [Holds] at hfmt
  have hp : parseSpec fmt = .ok (some ⟨field.length, base⟩) := by
    rw [hfmt, List.append_assoc, List.append_assoc]; exact parse_eq hfi htext
  have hs : ∀ (l : List Char) n, nul ∉ l → cstrSize l n = .ub := by
    intro l
    induction l with
    | nil => intro n _; rfl
    | cons c l ih =>
      intro n h
      rw [List.mem_cons, not_or] at h
      rw [cstrSize, if_neg (fun e => h.1 e.symm), ih _ h.2]
  have put_ub : ∀ b c, put b c = .ub ∨ ∃ r, put b c = .ok r := by
    intro b c
    unfold put arrSet
    split
    · exact .inr ⟨_, rfl⟩
    · exact .inl rfl
  have hw : ∀ (l : List Char) b, nul ∉ l → putCstr b l = .ub := by
    intro l
    induction l with
    | nil => intro b _; rfl
    | cons c l ih =>
      intro b h
      rw [List.mem_cons, not_or] at h
      rw [putCstr, if_neg (fun e => h.1 e.symm)]
      rcases put_ub b c with e | ⟨r, e⟩
      · rw [e]; rfl
      · rw [e, Outcome.ok_bind, ih _ h.2]
  have hc : ∀ (l : List Char) b, copyToBrace b l = .ub ∨ ∃ r, copyToBrace b l = .ok r := by
    intro l
    induction l with
    | nil => intro b; exact .inl rfl
    | cons c l ih =>
      intro b
      rw [copyToBrace]
      split
      · exact .inr ⟨_, rfl⟩
      · rcases put_ub b c with e | ⟨r, e⟩
        · rw [e]; exact .inl rfl
        · rw [e, Outcome.ok_bind]; exact ih r
  have h1 : formattedSize fuel fmt (.cstr a) = .ub := by
    unfold formattedSize
    rw [hp, Outcome.ok_bind]
    simp only [valSize]
    rw [hs a 0 ha]; rfl
  refine ⟨h1, by unfold performFormat; rw [h1]; rfl, ?_⟩
  unfold formatTo
  rw [hp, Outcome.ok_bind]
  simp only
  rcases hc fmt (buf, 0) with e | ⟨r, e⟩
  · rw [e]; rfl
  · rw [e, Outcome.ok_bind]
    simp only [valTo]
    rw [hw a _ ha]; rfl

/-- The format string `"x{}"` with an array `{'a', 'b'}`. -/
example : Field ['{', '}'] 10 ∧ '{' ∉ ['x'] ∧ nul ∉ ['a', 'b'] := ⟨.inl ⟨rfl, rfl⟩, by decide, by decide⟩

/-- **C58 fails behind a NUL character.** The copy of the text after the field stops at a NUL character in it, while
the computed size counts all of it: what follows is lost and the result is padded with NUL characters. -/
theorem C58_nul_in_tail_violated {fuel base : Nat} {field text t1 t2 : List Char} (hfi : Field field base) (htext : '{' ∉ text)
    (ht1 : nul ∉ t1) {fmt : CtString} (hfmt : Holds fmt (text ++ (field ++ (t1 ++ nul :: t2)))) {v : Val} {l : List Char}
    (h : ValText base v l) (hf : FuelFor fuel v) :
    ∃ s, performFormat fuel fmt v = .ok (some s) ∧
      Holds s (text ++ (l ++ (t1 ++ List.replicate (t2.length + 1) nul))) := by
  have hb : base = 10 ∨ base = 16 := by rcases hfi with ⟨_, rfl⟩ | ⟨_, rfl⟩ <;> simp
  have hsz := size_of hfmt
  rw [Holds] at hfmt
  have hp : parseSpec fmt = .ok (some ⟨field.length, base⟩) := by
    rw [hfmt, List.append_assoc, List.append_assoc]; exact parse_eq hfi htext
  have h1 : formattedSize fuel fmt v = .ok (some (text.length + (l.length + (t1.length + (t2.length + 1))))) := by
    unfold formattedSize
    rw [hp, Outcome.ok_bind]
    simp only
    rw [valSize_eq hb h hf, Outcome.ok_bind, hsz, Outcome.pure_eq_ok]
    congr 2
    simp only [List.length_append, List.length_cons]; omega
  refine ⟨(text ++ (l ++ (t1 ++ List.replicate (t2.length + 1) nul))) ++ [nul], ?_, rfl⟩
  unfold performFormat
  rw [h1, Outcome.ok_bind]
  simp only
  unfold formatTo
  rw [hp, Outcome.ok_bind]
  simp only
  have ez : zeroed (text.length + (l.length + (t1.length + (t2.length + 1))) + 1) = [] ++ (List.replicate text.length nul ++
      (List.replicate l.length nul ++ (List.replicate t1.length nul ++ (List.replicate (t2.length + 1) nul ++ [nul])))) := by
    rw [List.nil_append, ← List.replicate_one, List.replicate_append_replicate, List.replicate_append_replicate,
      List.replicate_append_replicate, List.replicate_append_replicate]
    unfold zeroed
    congr 1
  obtain ⟨r, er⟩ : ∃ r, field = '{' :: r := by rcases hfi with ⟨rfl, _⟩ | ⟨rfl, _⟩ <;> exact ⟨_, rfl⟩
  have ef : fmt = text ++ '{' :: (r ++ (t1 ++ nul :: (t2 ++ [nul]))) := by rw [hfmt, er]; simp
  have e1 := copyToBrace_eq text htext [] (List.replicate text.length nul)
    (List.replicate l.length nul ++ (List.replicate t1.length nul ++ (List.replicate (t2.length + 1) nul ++ [nul])))
    (r ++ (t1 ++ nul :: (t2 ++ [nul]))) (by simp)
  simp only [List.length_nil, Nat.zero_add] at e1
  rw [ez, ef, e1, Outcome.ok_bind]
  simp only [List.nil_append]
  rw [valTo_eq hb h hf text _ _ (by simp), Outcome.ok_bind]
  have e2 : ('{' :: (r ++ (t1 ++ nul :: (t2 ++ [nul])))).drop field.length = t1 ++ nul :: (t2 ++ [nul]) := by
    rw [show '{' :: (r ++ (t1 ++ nul :: (t2 ++ [nul]))) = field ++ (t1 ++ nul :: (t2 ++ [nul])) by rw [er]; simp, List.drop_left]
  rw [e2, putCstr_eq _ _ _ ht1]
  have e3 := putAll_eq t1 (text ++ l) (List.replicate t1.length nul) (List.replicate (t2.length + 1) nul ++ [nul]) (by simp)
  rw [List.length_append, List.append_assoc] at e3
  rw [e3, Outcome.ok_bind]
  simp

/-! ### Non-vacuity -/

example : ['}'] <+: ['}', 'a'] ∧ ¬ (['}'] <+: ['d', '}'] ∨ [':', 'x', '}'] <+: [':', 'd', '}']) := by decide
example : Holds (['a', '{', '}', 'b', nul, 'c'] ++ [nul]) (['a'] ++ (['{', '}'] ++ (['b'] ++ nul :: ['c']))) ∧ nul ∉ ['b'] :=
  ⟨rfl, by decide⟩

example : Field ['{', ':', 'x', '}'] 16 ∧ (ITy.int 64 true).InRange (-(2 ^ 63)) ∧ numeral 16 (-255) = ['-', 'f', 'f'] := by
  refine ⟨Or.inr ⟨rfl, rfl⟩, by decide, by decide⟩
example : ValText 10 (.num (.int 8 true) (-128)) ['-', '1', '2', '8'] := ⟨8, true, rfl, by decide, by decide, by decide⟩
example : ValText 10 (.cstr ['h', 'i', nul, 'x']) ['h', 'i'] := ⟨by decide, ['x'], rfl⟩

end Verif.Fmt
