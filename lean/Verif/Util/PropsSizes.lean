import Verif.Util.Sizes
import Verif.Util.Props
import Verif.Udl.Props

/-!
# Properties of sizes in other units (C167)
-/

namespace Verif.Util

open Verif.Udl (Literal Value Split DigitOf DigitSeq DigitVal)

/-! ## Specification -/

/-- The number of bits in a unit. -/
def bits : Size → Nat
  | .z8 => 8
  | .z16 => 16
  | .z32 => 32
  | .z64 => 64

/-- `k` is the least number of units `U` that have room for `n` units `T`. -/
def Room (T U : Size) (n k : Nat) : Prop := n * bits T ≤ k * bits U ∧ ∀ m, n * bits T ≤ m * bits U → k ≤ m

/-! ## Lemmas -/

theorem bits_eq (T : Size) : bits T = 8 * T.bytes := by cases T <;> rfl

theorem mul_bits (T : Size) (n : Nat) : n * bits T = 8 * (n * T.bytes) := by rw [bits_eq, Nat.mul_left_comm]

theorem room {T U : Size} {n k : Nat} (h : Least T.bytes U.bytes n k) : Room T U n k := by
  refine ⟨?_, fun m hm => h.2 m ?_⟩
  · have := h.1
    rw [mul_bits, mul_bits]
    omega
  · rw [mul_bits, mul_bits] at hm
    omega

theorem bytes_pos (T : Size) : 0 < T.bytes := by cases T <;> decide

theorem bytes_lt (T : Size) {w : Nat} (hw : 5 ≤ w) : T.bytes < 2 ^ w := by
  have h1 : T.bytes < 2 ^ 5 := by cases T <;> decide
  exact Nat.lt_of_lt_of_le h1 (Nat.pow_le_pow_right (by decide) hw)

theorem bytes_dvd (T U : Size) : T.bytes ≤ U.bytes ∨ U.bytes ∣ T.bytes := by cases T <;> cases U <;> decide

theorem least_unique {T U n k k' : Nat} (h : Least T U n k) (h' : Least T U n k') : k = k' := Nat.le_antisymm (h.2 _ h'.1) (h'.2 _ h.1)

theorem least {w : Nat} (hw : 5 ≤ w) {T U : Size} {n : Nat} (hf : Fits w T.bytes U.bytes n) :
    Least T.bytes U.bytes n (sizeConversion w T.bytes U.bytes n) :=
  C73_least_partial w _ _ _ (bytes_pos _) (bytes_pos _) (bytes_lt _ hw) hf ((bytes_dvd T U).imp_right .inl)

theorem literal_eq {w : Nat} (hw : 5 ≤ w) {cs ds : List Nat} {base n : Nat} (h : Literal cs base ds) (hn : Value base ds n) (T U : Size) :
    literal w cs T U = some (sizeConversion w T.bytes U.bytes (n % 2 ^ w)) := by
  unfold literal literalIn
  rw [Udl.C72_parse_unsigned w hw h hn]
  rfl

/-! ## The properties -/

/-- **C167, literals, if nothing wraps**: the least number of units that hold the size. -/
theorem C167_literal_partial {w : Nat} (hw : 5 ≤ w) {cs ds : List Nat} {base n : Nat} (h : Literal cs base ds) (hn : Value base ds n) (T U : Size)
    (hf : Fits w T.bytes U.bytes n) : ∃ k, literal w cs T U = some k ∧ Room T U n k := by
  have hlt : n < 2 ^ w := by
    unfold Fits at hf
    have := Nat.le_mul_of_pos_right n (bytes_pos T)
    omega
  exact ⟨_, literal_eq hw h hn T U, by rw [Nat.mod_eq_of_lt hlt]; exact room (least hw hf)⟩

/-- **C167, literals and objects agree**, whatever wraps, if the number itself fits. -/
theorem C167_same {w : Nat} (hw : 5 ≤ w) {cs ds : List Nat} {base n : Nat} (h : Literal cs base ds) (hn : Value base ds n) (hlt : n < 2 ^ w)
    (T U : Size) : literal w cs T U = objectIn w false T.bytes U.bytes n := by
  rw [literal_eq hw h hn, Nat.mod_eq_of_lt hlt]
  rfl

/-- **C167, by way of bytes**: a size converted to bytes and then to units is the size converted to units. -/
theorem C167_bytes {w : Nat} (hw : 5 ≤ w) (T U : Size) {n k m : Nat} (hf : n * T.bytes + (U.bytes - 1) < 2 ^ w)
    (h1 : objectIn w false T.bytes Size.z8.bytes n = some k) (h2 : objectIn w false Size.z8.bytes U.bytes k = some m) :
    k * 8 = n * bits T ∧ objectIn w false T.bytes U.bytes n = some m := by
  simp only [objectIn, Bool.false_eq_true, if_false, Option.some.injEq] at h1 h2 ⊢
  have hT := bytes_pos T
  have hU := bytes_pos U
  have e8 : Size.z8.bytes = 1 := rfl
  have l1 : Least T.bytes 1 n k := by
    rw [← h1]
    refine least (U := .z8) hw ?_
    unfold Fits
    rw [e8, if_neg (by omega)]
    omega
  have hk : k = n * T.bytes := by
    have a := l1.1
    have b := l1.2 (n * T.bytes) (by omega)
    omega
  refine ⟨by rw [mul_bits]; omega, ?_⟩
  have l2 : Least 1 U.bytes k m := by
    rw [← h2]
    refine least (T := .z8) hw ?_
    unfold Fits
    rw [e8]
    split <;> omega
  have l3 : Least T.bytes U.bytes n (sizeConversion w T.bytes U.bytes n) := by
    refine least hw ?_
    unfold Fits
    split <;> omega
  refine least_unique l3 ?_
  unfold Least at l2 ⊢
  rw [hk, Nat.mul_one] at l2
  exact l2

/-- **C167, there and back**: in smaller units and back again it is the same size; in larger units and back at least as much, by less than one unit. -/
theorem C167_back {w : Nat} (hw : 5 ≤ w) (T U : Size) {n k m : Nat} (hf : n * T.bytes + 2 * (T.bytes + U.bytes) < 2 ^ w)
    (h1 : objectIn w false T.bytes U.bytes n = some k) (h2 : objectIn w false U.bytes T.bytes k = some m) :
    n ≤ m ∧ (m - n) * bits T < bits U ∧ (bits U ≤ bits T → m = n) := by
  simp only [objectIn, Bool.false_eq_true, if_false, Option.some.injEq] at h1 h2
  suffices h : n ≤ m ∧ (m - n) * T.bytes < U.bytes ∧ (U.bytes ≤ T.bytes → m = n) by
    rw [mul_bits, bits_eq U, bits_eq T]
    exact ⟨h.1, Nat.mul_lt_mul_of_pos_left h.2.1 (by decide), fun e => h.2.2 (by omega)⟩
  have hT := bytes_pos T
  have hU := bytes_pos U
  have l1 : Least T.bytes U.bytes n k := by
    rw [← h1]
    refine least hw ?_
    unfold Fits
    split <;> omega
  have hk : k * U.bytes < n * T.bytes + U.bytes := by
    cases k with
    | zero => omega
    | succ q =>
      have : ¬ n * T.bytes ≤ q * U.bytes := fun h => by have := l1.2 q h; omega
      rw [Nat.add_mul]
      omega
  have l2 : Least U.bytes T.bytes k m := by
    rw [← h2]
    refine least hw ?_
    unfold Fits
    split <;> omega
  have hn : n ≤ m := by
    have h := Nat.le_trans l1.1 l2.1
    exact Nat.le_of_mul_le_mul_right h hT
  have hs : U.bytes ≤ T.bytes → m = n := by
    intro hle
    refine Nat.le_antisymm (l2.2 n ?_) hn
    obtain ⟨q, hq⟩ : U.bytes ∣ T.bytes := (bytes_dvd T U).elim (fun h => by rw [Nat.le_antisymm h hle]) id
    have hm : k ≤ n * q := l1.2 _ (by rw [hq, Nat.mul_assoc, Nat.mul_comm q])
    calc k * U.bytes ≤ n * q * U.bytes := Nat.mul_le_mul_right _ hm
      _ = n * T.bytes := by rw [hq, Nat.mul_assoc, Nat.mul_comm q]
  refine ⟨hn, ?_, hs⟩
  by_cases hle : U.bytes ≤ T.bytes
  · rw [hs hle]; simpa using hU
  · obtain ⟨q, hq⟩ : T.bytes ∣ U.bytes := (bytes_dvd U T).resolve_left hle
    have hm : m ≤ k * q := l2.2 _ (by rw [hq, Nat.mul_assoc, Nat.mul_comm q])
    have h3 : m * T.bytes ≤ k * U.bytes := by
      calc m * T.bytes ≤ k * q * T.bytes := Nat.mul_le_mul_right _ hm
        _ = k * U.bytes := by rw [hq, Nat.mul_assoc, Nat.mul_comm q]
    rw [Nat.sub_mul]
    omega

/-- **C167, disproved of literals that do not fit**: a number that `std::size_t` cannot hold compiles and gives too few units. -/
theorem C167_wraps_violated {w : Nat} (hw : 5 ≤ w) {cs ds : List Nat} {base n : Nat} (h : Literal cs base ds) (hn : Value base ds n) (T U : Size)
    (hbig : 2 ^ w ≤ n) : ∃ k, literal w cs T U = some k ∧ k * bits U < n * bits T := by
  refine ⟨_, literal_eq hw h hn T U, ?_⟩
  rw [mul_bits, mul_bits]
  refine Nat.mul_lt_mul_of_pos_left ?_ (by decide)
  have hT := bytes_pos T
  have hU := bytes_pos U
  have hUw := bytes_lt U hw
  have hm : n % 2 ^ w + 2 ^ w ≤ n := by
    have h1 := Nat.div_add_mod n (2 ^ w)
    have h2 : 1 ≤ n / 2 ^ w := (Nat.one_le_div_iff (by positivity)).mpr hbig
    have h3 := Nat.mul_le_mul_left (2 ^ w) h2
    omega
  generalize hv : n % 2 ^ w = v at hm
  have hmul : v * T.bytes + 2 ^ w ≤ n * T.bytes := by
    have h1 := Nat.mul_le_mul_right T.bytes hm
    rw [Nat.add_mul] at h1
    have h2 := Nat.le_mul_of_pos_right (2 ^ w) hT
    omega
  by_cases hf : Fits w T.bytes U.bytes v
  · have l := least hw hf
    generalize sizeConversion w T.bytes U.bytes v = k at l
    cases k with
    | zero => omega
    | succ q =>
      have : ¬ v * T.bytes ≤ q * U.bytes := fun h => by have := l.2 q h; omega
      rw [Nat.add_mul]
      omega
  · by_cases hne : T.bytes = U.bytes
    · have : sizeConversion w T.bytes U.bytes v = v := by simp [sizeConversion, hne]
      rw [this, ← hne]
      have : 0 < 2 ^ w := by positivity
      omega
    · have := C73_overflow_violated w T.bytes U.bytes v hU hUw hne hf
      omega

/-- **C167, disproved of totals that do not fit**: the literal compiles and gives too few units. -/
theorem C167_total_violated {w : Nat} (hw : 5 ≤ w) {cs ds : List Nat} {base n : Nat} (h : Literal cs base ds) (hn : Value base ds n) (T U : Size)
    (hlt : n < 2 ^ w) (hne : T ≠ U) (hf : ¬ Fits w T.bytes U.bytes n) : ∃ k, literal w cs T U = some k ∧ k * bits U < n * bits T := by
  refine ⟨_, literal_eq hw h hn T U, ?_⟩
  rw [mul_bits, mul_bits]
  refine Nat.mul_lt_mul_of_pos_left ?_ (by decide)
  rw [Nat.mod_eq_of_lt hlt]
  exact C73_overflow_violated w _ _ _ (bytes_pos _) (bytes_lt _ hw) (fun e => hne (by cases T <;> cases U <;> first | rfl | exact absurd e (by decide))) hf

/-- **C167, disproved of const objects**: they cannot be asked, although objects that are not const can. -/
theorem C167_const_violated {w : Nat} (hw : 5 ≤ w) (T U : Size) {n : Nat} (hf : Fits w T.bytes U.bytes n) :
    objectIn w true T.bytes U.bytes n = none ∧ ∃ k, objectIn w false T.bytes U.bytes n = some k ∧ Room T U n k :=
  ⟨rfl, _, rfl, room (least hw hf)⟩

/-- **C167, what is no number is rejected.** -/
theorem C167_rejected (w : Nat) {cs body : List Nat} {base : Nat} (h : Split cs base body) {c : Nat} (hm : c ∈ body) (hc : c < 128)
    (hsep : c ≠ 39) (hd : ¬ DigitOf base c) (T U : Size) : literal w cs T U = none := by
  unfold literal literalIn
  rw [Udl.C72_rejected _ h hm hc hsep hd]

/-! ## Examples -/

/-- `42` -/
theorem lit42 : Literal [52, 50] 10 [52, 50] ∧ Value 10 [52, 50] 42 :=
  ⟨.decimal (by decide) (.next (cs := [52]) (ds := [52]) (.one ⟨4, .dec (c := 52) (by decide) (by decide), by decide⟩)
    ⟨2, .dec (c := 50) (by decide) (by decide), by decide⟩),
   .cons (v := 4) (n := 2) (.dec (c := 52) (by decide) (by decide)) (.cons (v := 2) (n := 0) (.dec (c := 50) (by decide) (by decide)) .nil)⟩

/-- The digits of 8 followed by zeros, in hexadecimal. -/
theorem seq8 : ∀ z : Nat, DigitSeq (DigitOf 16) (56 :: List.replicate z 48) (56 :: List.replicate z 48)
  | 0 => .one ⟨8, .dec (c := 56) (by decide) (by decide), by decide⟩
  | z + 1 => by
    rw [List.replicate_succ']
    exact .next (seq8 z) ⟨0, .dec (c := 48) (by decide) (by decide), by decide⟩

theorem zeros : ∀ z : Nat, Value 16 (List.replicate z 48) 0
  | 0 => .nil
  | z + 1 => by
    have := Value.cons (base := 16) (.dec (c := 48) (by decide) (by decide)) (zeros z)
    simpa [List.replicate_succ] using this

/-- `0x80…0` -/
theorem lit8 (z : Nat) : Literal (48 :: 120 :: 56 :: List.replicate z 48) 16 (56 :: List.replicate z 48) ∧
    Value 16 (56 :: List.replicate z 48) (8 * 16 ^ z) := by
  refine ⟨.hex (.inl rfl) (seq8 z), ?_⟩
  have := Value.cons (base := 16) (.dec (c := 56) (by decide) (by decide)) (zeros z)
  simpa using this

/-- `42_z8->z32` is 11. -/
example : literal 64 [52, 50] .z8 .z32 = some 11 ∧ Room .z8 .z32 42 11 := by
  obtain ⟨k, h1, h2⟩ := C167_literal_partial (w := 64) (by decide) lit42.1 lit42.2 .z8 .z32 (by unfold Fits; decide)
  have h3 : Room .z8 .z32 42 11 := ⟨by decide, fun m h => by simp only [bits] at h; omega⟩
  exact ⟨by rw [h1, Nat.le_antisymm (h2.2 _ h3.1) (h3.2 _ h2.1)], h3⟩
example := C167_same (w := 32) (by decide) lit42.1 lit42.2 (by decide) .z64 .z16
example := C167_bytes (w := 32) (by decide) .z16 .z64 (n := 5) (by decide) rfl rfl
example := C167_back (w := 32) (by decide) .z16 .z64 (n := 5) (by decide) rfl rfl
/-- `0x800000000_z8->z8`, where `std::size_t` has 32 bits -/
example := C167_wraps_violated (w := 32) (by decide) (lit8 8).1 (lit8 8).2 .z8 .z8 (by decide)
/-- `0x80000000_z16->z8`, where `std::size_t` has 32 bits -/
example := C167_total_violated (w := 32) (by decide) (lit8 7).1 (lit8 7).2 .z16 .z8 (by decide) (by decide) (by unfold Fits; decide)
example := C167_const_violated (w := 64) (by decide) .z8 .z32 (n := 42) (by unfold Fits; decide)
/-- `08` -/
example : literal 64 [48, 56] .z8 .z8 = none :=
  C167_rejected 64 (.octal (by decide) (by decide) (by decide) (by decide)) (c := 56) (by decide) (by decide) (by decide)
    (fun ⟨_, h, h8⟩ => by cases h <;> omega) _ _

end Verif.Util
