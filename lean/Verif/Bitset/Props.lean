import Verif.BitMask.Props
import Verif.Bitset.Spec
import Verif.Bitset.Ctors

/-!
# `bitset` refines a subset of `{0, ..., N-1}` (C09, C14, C15, C16)
-/

namespace Verif.Bitset

open Verif.BitOps

theorem StdWidth.pos {w : Nat} (h : StdWidth w) : 0 < w := by
  rcases h with rfl | rfl | rfl | rfl <;> omega

theorem lenToMsb_eq {l len : Nat} (h0 : 0 < len) (h : l + len ≤ 4294967296) :
    lenToMsb l len = l + len - 1 := by
  unfold lenToMsb; omega

theorem setLen_spec {w : Nat} (hw : 0 < w) {s : Words w} {l len : Nat} (h0 : 0 < len)
    (h1 : l + len ≤ s.length * w) (h2 : l + len ≤ 4294967296) (v : Bool) :
    ∃ r, setLen s l len v = .ok r ∧ r.length = s.length ∧
      ∀ i, bits r i = if l ≤ i ∧ i < l + len then v else bits s i := by
  unfold setLen
  rw [lenToMsb_eq h0 h2]
  obtain ⟨r, e, hl, hb⟩ := setRange_spec hw (s := s) (l := l) (m := l + len - 1)
    (Nat.div_le_div_right (by omega)) (by omega) v
  refine ⟨r, e, hl, fun i => ?_⟩
  rw [hb]
  grind

/-- **C09, exact form.** For every capacity, word width and valid history, the operations are
defined and every stored bit, above `N` too, is the one `stored` predicts. -/
theorem C09_bitset_storage_exact {w : Nat} (hw : StdWidth w) (N : Nat) (x : Expr) (hx : x.Valid w N) :
    ∃ s, x.run w N = .ok s ∧ s.length = storageSize w N ∧
      ∀ i, i < storageSize w N * w → bits s i = x.stored w N i := by
  have hw0 := StdWidth.pos hw
  have hB := storage_bounds hw0 N
  induction x with
  | empty => exact ⟨_, rfl, length_empty, fun i _ => bits_empty⟩
  | ofU64 v => exact ofU64_spec hw hx v
  | place ps =>
    obtain ⟨r, e, hl, hb⟩ := placeBits_spec hw0 ps (empty w N) (fun p hp => by
      rw [length_empty]; have := hx p hp; omega)
    refine ⟨r, e, by rw [hl, length_empty], fun i _ => ?_⟩
    rw [hb, bits_empty, Expr.stored, Bool.or_false, List.contains_eq_mem]
  | allBits =>
    obtain ⟨r, e, hl, hb⟩ := allBits_spec hw0 N
    exact ⟨r, e, hl, fun i _ => hb i⟩
  | ofString str pos n one =>
    obtain ⟨r, e, hl, hb⟩ := ofString_spec hw0 (N := N) (n := n) one hx
    refine ⟨r, e, hl, fun i _ => ?_⟩
    rw [hb, Expr.stored, Bool.eq_iff_iff]; simp
  | set a j v ih =>
    obtain ⟨s, e1, hl1, hb1⟩ := ih hx.1
    obtain ⟨r, e, hl, hb⟩ := set_spec hw0 (s := s) (i := j) (by rw [hl1]; have := hx.2; omega) v
    refine ⟨r, by simp [Expr.run, e1, e], by omega, fun i hi => ?_⟩
    rw [hb, hb1 i hi, Expr.stored]
  | setRange a l m v ih =>
    obtain ⟨s, e1, hl1, hb1⟩ := ih hx.1
    obtain ⟨r, e, hl, hb⟩ := setRange_spec hw0 (s := s) (l := l) (m := m)
      (Nat.div_le_div_right hx.2.1) (by rw [hl1]; have := hx.2.2; omega) v
    refine ⟨r, by simp [Expr.run, e1, e], by omega, fun i hi => ?_⟩
    rw [hb, hb1 i hi, Expr.stored]
  | setLen a l len v ih =>
    obtain ⟨h1, h2, h3, h4⟩ := hx
    obtain ⟨s, e1, hl1, hb1⟩ := ih h1
    obtain ⟨r, e, hl, hb⟩ := setLen_spec hw0 (s := s) (l := l) h2 (by rw [hl1]; omega) h4 v
    refine ⟨r, by simp [Expr.run, e1, e], by omega, fun i hi => ?_⟩
    rw [hb, hb1 i hi, Expr.stored]
  | setAll a ih =>
    obtain ⟨s, e1, hl1, hb1⟩ := ih hx
    refine ⟨setAll s, by simp [Expr.run, e1], by simpa [setAll] using hl1, fun i hi => ?_⟩
    rw [setAll_bits hw0 (by rwa [hl1])]; rfl
  | reset a j ih =>
    obtain ⟨s, e1, hl1, hb1⟩ := ih hx.1
    obtain ⟨r, e, hl, hb⟩ := reset_spec hw0 (s := s) (i := j) (by rw [hl1]; have := hx.2; omega)
    refine ⟨r, by simp [Expr.run, e1, e], by omega, fun i hi => ?_⟩
    rw [hb, hb1 i hi, Expr.stored]
    by_cases h : i = j <;> simp [h]
  | resetRange a l m ih =>
    obtain ⟨s, e1, hl1, hb1⟩ := ih hx.1
    obtain ⟨r, e, hl, hb⟩ := setRange_spec hw0 (s := s) (l := l) (m := m)
      (Nat.div_le_div_right hx.2.1) (by rw [hl1]; have := hx.2.2; omega) false
    refine ⟨r, by simp [Expr.run, resetRange, e1, e], by omega, fun i hi => ?_⟩
    rw [hb, hb1 i hi, Expr.stored]
    by_cases h : l ≤ i <;> by_cases h' : i ≤ m <;> simp [h, h']
  | resetLen a l len ih =>
    obtain ⟨h1, h2, h3, h4⟩ := hx
    obtain ⟨s, e1, hl1, hb1⟩ := ih h1
    obtain ⟨r, e, hl, hb⟩ := setLen_spec hw0 (s := s) (l := l) h2 (by rw [hl1]; omega) h4 false
    refine ⟨r, by simp [Expr.run, resetLen, e1, e], by omega, fun i hi => ?_⟩
    rw [hb, hb1 i hi, Expr.stored]
    by_cases h : l ≤ i <;> by_cases h' : i < l + len <;> simp [h, h']
  | resetAll a ih =>
    obtain ⟨s, e1, hl1, hb1⟩ := ih hx
    refine ⟨resetAll s, by simp [Expr.run, e1], by simpa [resetAll] using hl1, fun i hi => ?_⟩
    rw [resetAll_bits hw0 (by rwa [hl1])]; rfl
  | flip a j ih =>
    obtain ⟨s, e1, hl1, hb1⟩ := ih hx.1
    obtain ⟨r, e, hl, hb⟩ := flip_spec hw0 (s := s) (i := j) (by rw [hl1]; have := hx.2; omega)
    refine ⟨r, by simp [Expr.run, e1, e], by omega, fun i hi => ?_⟩
    rw [hb, hb1 i hi, Expr.stored]
    by_cases h : i = j
    · simp [h]
    · rw [beq_eq_false_iff_ne.mpr h]; simp [h]
  | flipAll a ih =>
    obtain ⟨s, e1, hl1, hb1⟩ := ih hx
    refine ⟨flipAll s, by simp [Expr.run, e1], by simpa [flipAll] using hl1, fun i hi => ?_⟩
    rw [flipAll_bits hw0 (by rwa [hl1]), hb1 i hi]; rfl
  | or a b iha ihb =>
    obtain ⟨s, e1, hl1, hb1⟩ := iha hx.1
    obtain ⟨t, e2, hl2, hb2⟩ := ihb hx.2
    obtain ⟨r, e, hl, hb⟩ := or_spec hl1 hl2
    refine ⟨r, by simp [Expr.run, e1, e2, e], hl, fun i hi => ?_⟩
    rw [hb, hb1 i hi, hb2 i hi]; rfl
  | and a b iha ihb =>
    obtain ⟨s, e1, hl1, hb1⟩ := iha hx.1
    obtain ⟨t, e2, hl2, hb2⟩ := ihb hx.2
    obtain ⟨r, e, hl, hb⟩ := and_spec hl1 hl2
    refine ⟨r, by simp [Expr.run, e1, e2, e], hl, fun i hi => ?_⟩
    rw [hb, hb1 i hi, hb2 i hi]; rfl
  | xor a b iha ihb =>
    obtain ⟨s, e1, hl1, hb1⟩ := iha hx.1
    obtain ⟨t, e2, hl2, hb2⟩ := ihb hx.2
    obtain ⟨r, e, hl, hb⟩ := xor_spec hl1 hl2
    refine ⟨r, by simp [Expr.run, e1, e2, e], hl, fun i hi => ?_⟩
    rw [hb, hb1 i hi, hb2 i hi]; rfl
  | sub a b iha ihb =>
    obtain ⟨s, e1, hl1, hb1⟩ := iha hx.1
    obtain ⟨t, e2, hl2, hb2⟩ := ihb hx.2
    obtain ⟨r, e, hl, hb⟩ := sub_spec hw0 hl1 hl2
    refine ⟨r, by simp [Expr.run, e1, e2, e], hl, fun i hi => ?_⟩
    rw [hb, hb1 i hi, hb2 i hi]; rfl
  | not a ih =>
    obtain ⟨s, e1, hl1, hb1⟩ := ih hx
    obtain ⟨r, e, hl, hb⟩ := not_spec hw0 hl1
    refine ⟨r, by simp [Expr.run, e1, e], hl, fun i hi => ?_⟩
    rw [hb i hi, hb1 i hi]; rfl
  | shl a n ih =>
    obtain ⟨s, e1, hl1, hb1⟩ := ih hx.1
    rcases Nat.eq_zero_or_pos N with h0 | h0
    · subst h0
      exact ⟨s, by simp [Expr.run, e1, shl], hl1, fun i hi => by
        rw [storageSize_zero hw0] at hi; omega⟩
    · obtain ⟨r, e, hl, hb⟩ := shl_spec hw0 h0 hl1 (n := n) (hx.2.resolve_left (by omega))
      refine ⟨r, by simp [Expr.run, e1, e], hl, fun i hi => ?_⟩
      rw [hb i hi, hb1 (i - n) (by omega)]; rfl
  | shr a n ih =>
    obtain ⟨s, e1, hl1, hb1⟩ := ih hx.1
    rcases Nat.eq_zero_or_pos N with h0 | h0
    · subst h0
      exact ⟨s, by simp [Expr.run, e1, shr], hl1, fun i hi => by
        rw [storageSize_zero hw0] at hi; omega⟩
    · obtain ⟨r, e, hl, hb⟩ := shr_spec hw0 h0 hl1 (n := n) (hx.2.resolve_left (by omega))
      refine ⟨r, by simp [Expr.run, e1, e], hl, fun i hi => ?_⟩
      rw [hb i, Expr.stored]
      rcases Nat.lt_or_ge (i + n) (storageSize w N * w) with h | h
      · rw [hb1 _ h]; simp only [storageSize] at h; simp [h]
      · rw [bits_ge hw0 (by rwa [hl1])]; simp only [storageSize] at h
        simp [show ¬ i + n < (N + w - 1) / w * w by omega]

/-- Below `N` the storage agrees with the set, when no right shift moves junk down. -/
theorem stored_eq_mem {w : Nat} {N : Nat} (hN : N ≤ storageSize w N * w) (x : Expr) (hj : x.NoJunkShift w N) :
    ∀ i, i < N → x.stored w N i = x.mem N i := by
  induction x with
  | empty | ofU64 | place | ofString | setAll _ _ | resetAll _ _ => intro i _; rfl
  | allBits => intro i hi; simp [Expr.stored, Expr.mem, hi]
  | set a _ _ ih | setRange a _ _ _ ih | setLen a _ _ _ ih | reset a _ ih | resetRange a _ _ ih
  | resetLen a _ _ ih | flip a _ ih | flipAll a ih | not a ih =>
    intro i hi
    simp only [Expr.stored, Expr.mem]; rw [ih hj i hi]
  | or a b iha ihb | and a b iha ihb | xor a b iha ihb | sub a b iha ihb =>
    intro i hi
    simp only [Expr.stored, Expr.mem]; rw [iha hj.1 i hi, ihb hj.2 i hi]
  | shl a n ih =>
    intro i hi
    simp only [Expr.stored, Expr.mem]
    rw [ih hj (i - n) (by omega)]
  | shr a n ih =>
    intro i hi
    simp only [Expr.stored, Expr.mem]
    unfold storageSize at hN
    rcases Nat.lt_or_ge (i + n) N with h | h
    · rw [ih hj.1 (i + n) h]
      simp [h, show i + n < (N + w - 1) / w * w by omega]
    · rcases Nat.lt_or_ge (i + n) ((N + w - 1) / w * w) with h1 | h1
      · rw [hj.2 (i + n) h (by omega) h1]; simp [show ¬ i + n < N by omega]
      · simp [show ¬ i + n < N by omega, show ¬ i + n < (N + w - 1) / w * w by omega]

/-- **C09, partial.** For every capacity, word width, history and index below `N`, `operator[]`
answers as the mathematical subset, provided that shift distances stay below the number of stored
bits and that no right shift moves stored bits from `[N, ...)` below `N`.  Without that condition
the claim is false, see `C09_bitset_right_shift_violated`. -/
theorem C09_bitset_refines_set_partial {w : Nat} (hw : StdWidth w) (N : Nat) (x : Expr)
    (hx : x.Valid w N) (hj : x.NoJunkShift w N) :
    ∃ s, x.run w N = .ok s ∧ ∀ i, i < N → get s i = .ok (x.mem N i) := by
  have hw0 := StdWidth.pos hw
  have hB := storage_bounds hw0 N
  obtain ⟨s, e, hl, hb⟩ := C09_bitset_storage_exact hw N x hx
  refine ⟨s, e, fun i hi => ?_⟩
  rw [get_bits hw0 (by rw [hl]; omega), hb i (by omega), stored_eq_mem hB.1 x hj i hi]

theorem whole_words {w N : Nat} (hw : 0 < w) (h : N % w = 0) : (N + w - 1) / w * w = N := by
  have hB := storage_bounds hw N
  unfold storageSize at hB
  have h1 : N = N / w * w := by
    have := Nat.div_add_mod N w
    rw [h, Nat.mul_comm] at this; omega
  have h2 : (N + w - 1) / w = N / w := by
    rcases Nat.lt_trichotomy ((N + w - 1) / w) (N / w) with h3 | h3 | h3
    · have : ((N + w - 1) / w + 1) * w ≤ N / w * w := Nat.mul_le_mul_right w h3
      rw [Nat.add_mul] at this; omega
    · exact h3
    · have : (N / w + 1) * w ≤ (N + w - 1) / w * w := Nat.mul_le_mul_right w h3
      rw [Nat.add_mul] at this; omega
  rw [h2]; omega

/-- Tidy histories store nothing at or above `N`. -/
theorem tidy_clean {w N : Nat} (hw : 0 < w) (x : Expr) (hx : x.Valid w N) (ht : x.tidy w N = true) :
    ∀ j, N ≤ j → j < (N + w - 1) / w * w → x.stored w N j = false := by
  have whole : N % w = 0 → ∀ j, N ≤ j → j < (N + w - 1) / w * w → False := by
    intro h j h1 h2; rw [whole_words hw h] at h2; omega
  induction x with
  | empty | resetAll _ _ => intro j _ _; rfl
  | ofU64 v =>
    intro j h1 _
    simp only [Expr.tidy, decide_eq_true_eq] at ht
    exact Nat.testBit_lt_two_pow (Nat.lt_of_lt_of_le ht (Nat.pow_le_pow_right (by omega) h1))
  | place ps =>
    intro j h1 _
    simp only [Expr.stored, List.contains_eq_mem, decide_eq_false_iff_not]
    intro h; have := hx j h; omega
  | allBits => intro j h1 _; simp [Expr.stored]; omega
  | ofString str pos n one =>
    intro j h1 _
    simp only [Expr.stored]
    rw [List.getElem?_eq_none (by simp only [List.length_reverse, List.length_take]; omega)]; rfl
  | setAll _ _ | flipAll _ _ | not _ _ =>
    intro j h1 h2
    simp only [Expr.tidy, beq_iff_eq] at ht
    exact (whole ht j h1 h2).elim
  | set a i v ih =>
    intro j h1 h2
    rw [Expr.stored, if_neg (by have := hx.2; omega)]
    exact ih hx.1 ht j h1 h2
  | setRange a l m v ih =>
    intro j h1 h2
    rw [Expr.stored, if_neg (by have := hx.2.2; omega)]
    exact ih hx.1 ht j h1 h2
  | setLen a l len v ih =>
    intro j h1 h2
    rw [Expr.stored, if_neg (by have := hx.2.2.1; omega)]
    exact ih hx.1 ht j h1 h2
  | reset a _ ih | resetRange a _ _ ih | resetLen a _ _ ih =>
    intro j h1 h2
    simp only [Expr.stored]
    rw [ih hx.1 ht j h1 h2, Bool.and_false]
  | flip a i ih =>
    intro j h1 h2
    simp only [Expr.stored]
    rw [ih hx.1 ht j h1 h2]
    have := hx.2
    simp; omega
  | or a b iha ihb | xor a b iha ihb =>
    intro j h1 h2
    simp only [Expr.tidy, Bool.and_eq_true] at ht
    simp only [Expr.stored]
    rw [iha hx.1 ht.1 j h1 h2, ihb hx.2 ht.2 j h1 h2]; rfl
  | and a b iha ihb =>
    intro j h1 h2
    simp only [Expr.tidy, Bool.or_eq_true] at ht
    simp only [Expr.stored]
    rcases ht with ht | ht
    · rw [iha hx.1 ht j h1 h2]; rfl
    · rw [ihb hx.2 ht j h1 h2]; simp
  | sub a b iha ihb =>
    intro j h1 h2
    simp only [Expr.stored]
    rw [iha hx.1 ht j h1 h2]; rfl
  | shl a n ih =>
    intro j h1 h2
    simp only [Expr.tidy, Bool.or_eq_true, beq_iff_eq, Bool.and_eq_true] at ht
    rcases ht with ht | ⟨rfl, ht⟩
    · exact (whole ht j h1 h2).elim
    · simp only [Expr.stored, Nat.sub_zero]
      rw [ih hx.1 ht j h1 h2]; simp
  | shr a n ih =>
    intro j h1 h2
    simp only [Expr.stored]
    by_cases h3 : j + n < (N + w - 1) / w * w
    · rw [ih hx.1 ht (j + n) (by omega) h3]; simp
    · simp [h3]

theorem shiftsTidy_noJunk {w N : Nat} (hw : 0 < w) (x : Expr) (hx : x.Valid w N) (ht : x.ShiftsTidy w N) :
    x.NoJunkShift w N := by
  induction x with
  | empty | ofU64 | place | allBits | ofString => trivial
  | set a _ _ ih | setRange a _ _ _ ih | setLen a _ _ _ ih | reset a _ ih | resetRange a _ _ ih
  | resetLen a _ _ ih | flip a _ ih | shl a _ ih => exact ih hx.1 ht
  | setAll a ih | resetAll a ih | flipAll a ih | not a ih => exact ih hx ht
  | or a b iha ihb | and a b iha ihb | xor a b iha ihb | sub a b iha ihb =>
    exact ⟨iha hx.1 ht.1, ihb hx.2 ht.2⟩
  | shr a n ih =>
    exact ⟨ih hx.1 ht.1, fun j h1 _ h2 => tidy_clean hw a hx.1 ht.2 j h1 h2⟩

/-- **C09, partial, checked on the text of the history alone.** -/
theorem C09_bitset_refines_set_tidy_partial {w : Nat} (hw : StdWidth w) (N : Nat) (x : Expr)
    (hx : x.Valid w N) (hj : x.ShiftsTidy w N) :
    ∃ s, x.run w N = .ok s ∧ ∀ i, i < N → get s i = .ok (x.mem N i) :=
  C09_bitset_refines_set_partial hw N x hx (shiftsTidy_noJunk (StdWidth.pos hw) x hx hj)

/-- **C09 for capacities that fill whole words** needs no condition on right shifts. -/
theorem C09_bitset_refines_set_whole_words {w : Nat} (hw : StdWidth w) (N : Nat) (hN : N % w = 0)
    (x : Expr) (hx : x.Valid w N) :
    ∃ s, x.run w N = .ok s ∧ ∀ i, i < N → get s i = .ok (x.mem N i) := by
  have hw0 := StdWidth.pos hw
  have hB := whole_words hw0 hN
  obtain ⟨s, e, hl, hb⟩ := C09_bitset_storage_exact hw N x hx
  have hM : storageSize w N * w = N := hB
  refine ⟨s, e, fun i hi => ?_⟩
  rw [get_bits hw0 (by rw [hl, hM]; exact hi), hb i (by rw [hM]; exact hi)]
  congr 1
  apply stored_eq_mem (by omega) x ?_ i hi
  clear e hl hb
  induction x with
  | empty | ofU64 | place | allBits | ofString => trivial
  | set a _ _ ih | setRange a _ _ _ ih | setLen a _ _ _ ih | reset a _ ih | resetRange a _ _ ih
  | resetLen a _ _ ih | flip a _ ih | shl a _ ih => exact ih hx.1
  | setAll a ih | resetAll a ih | flipAll a ih | not a ih => exact ih hx
  | or a b iha ihb | and a b iha ihb | xor a b iha ihb | sub a b iha ihb =>
    exact ⟨iha hx.1, ihb hx.2⟩
  | shr a n ih => exact ⟨ih hx.1, fun j h1 _ h2 => by omega⟩

/-- **C09 is false as stated.** For every capacity that does not fill whole words, after
`bs.set(); bs >>= 1;` the top position `N - 1` reads as set, although nothing was there to shift
in. -/
theorem C09_bitset_right_shift_violated {w : Nat} (hw : StdWidth w) (N : Nat) (h : N % w ≠ 0) :
    (Expr.shr (.setAll .empty) 1).Valid w N ∧
    (Expr.shr (.setAll .empty) 1).mem N (N - 1) = false ∧
    ∃ s, (Expr.shr (.setAll .empty) 1).run w N = .ok s ∧ get s (N - 1) = .ok true := by
  have hw0 := StdWidth.pos hw
  have hB := storage_bounds hw0 N
  have hN0 : N ≠ 0 := by rintro rfl; simp at h
  have hlt : N < storageSize w N * w := by
    rcases Nat.lt_or_ge N (storageSize w N * w) with h1 | h1
    · exact h1
    · have : N = w * storageSize w N := by rw [Nat.mul_comm]; omega
      rw [this, Nat.mul_mod_right] at h; exact absurd rfl h
  have hv : (Expr.shr (.setAll .empty) 1).Valid w N :=
    ⟨trivial, Or.inr (by have := hlt; unfold storageSize at this; omega)⟩
  refine ⟨hv, by simp [Expr.mem]; omega, ?_⟩
  obtain ⟨s, e, hl, hb⟩ := C09_bitset_storage_exact hw N _ hv
  refine ⟨s, e, ?_⟩
  rw [get_bits hw0 (by rw [hl]; omega), hb _ (by omega)]
  simp only [Expr.stored]
  unfold storageSize at hlt
  simp; omega

/-- A non-trivial history within the hypotheses: 100 bits in 32-bit words. -/
def sample : Expr :=
  .xor (.shl (.setRange (.place [3, 64, 99]) 30 70 true) 20) (.shr (.sub (.flip .allBits 5) (.not .empty)) 3)

example : sample.Valid 32 100 := by
  simp [sample, Expr.Valid]
example : sample.ShiftsTidy 32 100 := by
  simp [sample, Expr.ShiftsTidy, Expr.tidy]
example : (sample.mem 100 23, sample.mem 100 22, sample.mem 100 84) = (true, false, true) := by decide

/-! ## Shifts by themselves -/

/-- **C14, partial.** On any contents, both shifts by less than the number of stored bits are
defined; below `N` the left shift is a translation, and so is the right shift if positions
`[N, N + n)` of the storage are clear. -/
theorem C14_bitset_shift_partial {w : Nat} (hw : 0 < w) {N n : Nat} (hN : 0 < N) {s : Words w}
    (hs : s.length = storageSize w N) (hn : n < storageSize w N * w) :
    (∃ r, shl N s n = .ok r ∧ ∀ i, i < N → ∃ b, get r i = .ok b ∧
      (n ≤ i → get s (i - n) = .ok b) ∧ (i < n → b = false)) ∧
    (∃ r, shr N s n = .ok r ∧ ∀ i, i < N → ∃ b, get r i = .ok b ∧
      (i + n < N → get s (i + n) = .ok b) ∧
      (N ≤ i + n → (∀ j, N ≤ j → j < storageSize w N * w → get s j = .ok false) → b = false)) := by
  have hB := storage_bounds hw N
  constructor
  · obtain ⟨r, e, hl, hb⟩ := shl_spec hw hN hs hn
    refine ⟨r, e, fun i hi => ⟨_, get_bits hw (by rw [hl]; omega), fun h => ?_, fun h => ?_⟩⟩
    · rw [get_bits hw (by rw [hs]; omega), hb i (by omega)]; simp [h]
    · rw [hb i (by omega)]; simp; omega
  · obtain ⟨r, e, hl, hb⟩ := shr_spec hw hN hs hn
    refine ⟨r, e, fun i hi => ⟨_, get_bits hw (by rw [hl]; omega), fun h => ?_, fun h h' => ?_⟩⟩
    · rw [get_bits hw (by rw [hs]; omega), hb i]
    · rw [hb i]
      rcases Nat.lt_or_ge (i + n) (storageSize w N * w) with h1 | h1
      · have := h' (i + n) h h1
        rw [get_bits hw (by rw [hs]; omega)] at this
        simpa using this
      · exact bits_ge hw (by rw [hs]; exact h1)

/-- **C14 is false for large left shifts**: a left shift by at least the number of stored bits is
undefined (it reads outside the array). -/
theorem C14_bitset_left_shift_undefined {w : Nat} (hw : 0 < w) {N n : Nat} (hN : 0 < N) {s : Words w}
    (hs : s.length = storageSize w N) (hn : storageSize w N * w ≤ n) (hn64 : n < 2 ^ 64) :
    shl N s n = .ub := by
  have hp := storageSize_pos hw hN
  have hq : storageSize w N ≤ n / w := (Nat.le_div_iff_mul_le hw).mpr hn
  have hq2 : n / w ≤ n := Nat.div_le_self n w
  have hsub : storageSize w N ≤ szSub (storageSize w N - 1) (n / w) := by
    unfold szSub; rw [if_neg (by omega)]; omega
  obtain ⟨k, hk⟩ : ∃ k, szSub (storageSize w N - 1) (n / w) = k + 1 := ⟨_, (Nat.succ_pred (by omega)).symm⟩
  have hg : arrGet s (k + 1) = .ub := by
    unfold arrGet; rw [List.getElem?_eq_none (by omega)]
  simp only [shl, show N ≠ 0 by omega, ↓reduceIte, hk, shlLoop, hg]
  split <;> rfl

/-- **C14 is false for large right shifts**: a right shift by any distance of at least the number of stored bits leaves
the last stored word in place of the first one, shifted by the remainder only. (For whole-word capacities the bit at
`N - w + n % w`, which should be gone, appears at position 0.) -/
theorem C14_bitset_right_shift_violated {w : Nat} (hw : 0 < w) {N n : Nat} (hN : 0 < N) {s : Words w}
    (hs : s.length = storageSize w N) (hn : storageSize w N * w ≤ n) :
    ∃ r, shr N s n = .ok r ∧ ∀ i, i + n % w < w → get r i = get s ((storageSize w N - 1) * w + (i + n % w)) := by
  have hp := storageSize_pos hw hN
  have hq : storageSize w N ≤ n / w := (Nat.le_div_iff_mul_le hw).mpr hn
  have hm : n % w < w := Nat.mod_lt _ hw
  have h0 : 0 < s.length := by omega
  obtain ⟨r, e, hl, hb⟩ := zeroUp_spec (storageSize w N - (0 + 1)) (0 + 1)
    (s.set 0 (wd s (storageSize w N - 1) >>> (n % w))) (by simp; omega)
  refine ⟨r, ?_, ?_⟩
  · simp only [shr, show N ≠ 0 by omega, ↓reduceIte,
      show storageSize w N - 1 - n / w = 0 by omega, shrLoop, Outcome.ok_bind,
      back_wd h0, cshr_ok hm, arrSet_of_lt h0, hs]
    exact e
  · intro i hi
    have h1 : (storageSize w N - 1) * w + (i + n % w) < s.length * w := by
      have : (storageSize w N - 1) * w + w = s.length * w := by
        rw [hs, ← Nat.succ_mul]; congr 1; omega
      omega
    have h2 : i < r.length * w := by
      rw [hl, List.length_set]
      exact Nat.lt_of_lt_of_le (by omega) (Nat.le_mul_of_pos_left w h0)
    rw [get_bits hw h2, get_bits hw h1]
    have h3 : bits r i = (wd r 0).getLsbD i := by
      simp only [bits, Nat.div_eq_of_lt (show i < w by omega), Nat.mod_eq_of_lt (show i < w by omega)]
    have h4 : bits s ((storageSize w N - 1) * w + (i + n % w)) = (wd s (storageSize w N - 1)).getLsbD (i + n % w) := by
      simp only [bits]
      rw [Nat.mul_comm, Nat.mul_add_div hw, Nat.mul_add_mod, Nat.div_eq_of_lt hi, Nat.mod_eq_of_lt hi, Nat.add_zero]
    rw [h3, h4, hb, if_neg (by omega), wd_set h0, if_pos rfl, BitVec.getLsbD_ushiftRight, Nat.add_comm]

example : ([0x80#8, 0x04#8] : Words 8).length = storageSize 8 16 ∧ storageSize 8 16 * 8 ≤ 18 := ⟨rfl, by decide⟩

/-! ## Ranges by themselves -/

/-- **C15.** `set(lsb, msb, v)` on any contents: exactly the positions of the closed range change.
With a non-zero length, `set(lsb, len, v)` does the same for `[lsb, lsb + len)`. -/
theorem C15_bitset_range {w : Nat} (hw : 0 < w) {N : Nat} {s : Words w} (hs : s.length = storageSize w N)
    (v : Bool) :
    (∀ l m, l ≤ m → m < N → ∃ r, setRange s l m v = .ok r ∧ r.length = s.length ∧
      ∀ i, i < storageSize w N * w → get r i = if l ≤ i ∧ i ≤ m then .ok v else get s i) ∧
    (∀ l len, 0 < len → l + len ≤ N → l + len ≤ 4294967296 →
      ∃ r, setLen s l len v = .ok r ∧ r.length = s.length ∧
      ∀ i, i < storageSize w N * w → get r i = if l ≤ i ∧ i < l + len then .ok v else get s i) := by
  have hB := storage_bounds hw N
  constructor
  · intro l m hlm hm
    obtain ⟨r, e, hl, hb⟩ := setRange_spec hw (s := s) (l := l) (m := m) (Nat.div_le_div_right hlm)
      (by rw [hs]; omega) v
    refine ⟨r, e, hl, fun i hi => ?_⟩
    rw [get_bits hw (by rw [hl, hs]; exact hi), get_bits hw (by rw [hs]; exact hi), hb]
    split <;> rfl
  · intro l len h0 h1 h2
    obtain ⟨r, e, hl, hb⟩ := setLen_spec hw (s := s) (l := l) h0 (by rw [hs]; omega) h2 v
    refine ⟨r, e, hl, fun i hi => ?_⟩
    rw [get_bits hw (by rw [hl, hs]; exact hi), get_bits hw (by rw [hs]; exact hi), hb]
    split <;> rfl

/-- **C15, empty ranges, partial.** A zero length changes nothing when `lsb` is not the first
position of a word. -/
theorem C15_bitset_empty_range_partial {w : Nat} (hw : 0 < w) {N : Nat} {s : Words w}
    (hs : s.length = storageSize w N) (v : Bool) (l : Nat) (hl : l < N) (hl32 : l ≤ 4294967296)
    (h : l % w ≠ 0) :
    ∃ r, setLen s l 0 v = .ok r ∧ ∀ i, i < storageSize w N * w → get r i = get s i := by
  have hB := storage_bounds hw N
  have hl0 : l ≠ 0 := by rintro rfl; simp at h
  have hm : lenToMsb l 0 = l - 1 := by unfold lenToMsb; omega
  have hd : l / w = (l - 1) / w := by
    obtain ⟨j, k, rfl, hk, e1, e2⟩ := split_pos hw l
    rw [e2] at h
    rw [e1, show j * w + k - 1 = w * j + (k - 1) by rw [Nat.mul_comm]; omega, Nat.mul_add_div hw,
      Nat.div_eq_of_lt (by omega), Nat.add_zero]
  obtain ⟨r, e, hlen, hb⟩ := setRange_spec hw (s := s) (l := l) (m := l - 1) (by omega)
    (by rw [hs]; omega) v
  refine ⟨r, by rw [setLen, hm, e], fun i hi => ?_⟩
  rw [get_bits hw (by rw [hlen, hs]; exact hi), get_bits hw (by rw [hs]; exact hi), hb,
    if_neg (by omega)]

/-- A range loop that starts above its end runs off the array. -/
theorem rangeLoop_runaway {w : Nat} {value : Bool} {mask : BitVec w} : ∀ (n : Nat) (s : Words w) (l m : Nat),
    m < l → s.length ≤ l + n → rangeLoop value mask n s l m = .ub := by
  intro n
  induction n with
  | zero => intro s l m h _; rw [rangeLoop, if_neg (by omega)]
  | succ n ih =>
    intro s l m h h2
    rw [rangeLoop, if_neg (by omega)]
    rcases Nat.lt_or_ge l s.length with h3 | h3
    · obtain ⟨r, e, hl, _⟩ := applyMask_spec (value := value) h3 mask
      simp only [e, Outcome.ok_bind]
      exact ih r (l + 1) m (by omega) (by omega)
    · have : applyMask value s l mask = .ub := by
        unfold applyMask arrGet; rw [List.getElem?_eq_none (by omega)]; rfl
      simp [this]

/-- **C15 is false for empty ranges at a word boundary**: a zero length with `lsb` a positive
multiple of the word width (inside the set) runs off the array. -/
theorem C15_bitset_empty_range_undefined {w : Nat} (hw : 0 < w) {N : Nat} {s : Words w}
    (hs : s.length = storageSize w N) (v : Bool) (l : Nat) (hl : l < N) (hl32 : l ≤ 4294967296)
    (h0 : l ≠ 0) (h : l % w = 0) : setLen s l 0 v = .ub := by
  have hm : lenToMsb l 0 = l - 1 := by unfold lenToMsb; omega
  have hll : l / w < s.length := by rw [hs]; exact index_lt' hw hl
  have hd : (l - 1) / w < l / w := by
    obtain ⟨j, k, rfl, hk, e1, e2⟩ := split_pos hw l
    rw [e2] at h; subst h
    rw [e1]
    apply Nat.div_lt_of_lt_mul
    rw [Nat.mul_comm w j]; omega
  have hz := Nat.zero_le ((l - 1) / w)
  unfold setLen setRange
  rw [hm, cshl_ok (Nat.mod_lt l hw)]
  simp only [Outcome.ok_bind]
  rw [if_pos (by omega)]
  obtain ⟨r, e, hl, _⟩ := applyMask_spec (value := v) hll (BitVec.allOnes w <<< (l % w))
  simp only [e, Outcome.ok_bind, setRangeTail]
  rw [rangeLoop_runaway _ _ _ _ (by omega) (by omega)]
  rfl

example : storageSize 8 20 = 3 ∧ (8 : Nat) % 8 = 0 := by decide

/-! ## Constructors and conversions -/

/-- **C16 does not hold in full**: a bitset of no bits with 64-bit words writes to the first word of its empty storage when it
is made from a value, whatever the value. -/
theorem C16_empty_value_undefined (v : BitVec 64) : ofU64 64 0 v = .ub := rfl

/-- **C16, strings, positions and values.** -/
theorem C16_bitset_constructors_partial {w : Nat} (hw : StdWidth w) (N : Nat) :
    (∀ v : BitVec 64, (N ≠ 0 ∨ w ≠ 64) → ∃ s, ofU64 w N v = .ok s ∧
      ∀ i, i < N → get s i = .ok (v.getLsbD i)) ∧
    (∀ ps : List Nat, (∀ p ∈ ps, p < N) → ∃ s, placeBits ps (empty w N) = .ok s ∧
      ∀ i, i < N → get s i = .ok (decide (i ∈ ps))) ∧
    (∃ s, allBits w N = .ok s ∧ ∀ i, i < N → get s i = .ok true) ∧
    (∀ (str : List Char) (pos n : Nat) (one : Char), pos ≤ str.length →
      ∃ s, ofString w N str pos n one = .ok s ∧ ∀ i, i < N →
        get s i = .ok (decide ((((str.drop pos).take n).take N).reverse[i]? = some one))) := by
  have hw0 := StdWidth.pos hw
  have hB := storage_bounds hw0 N
  refine ⟨fun v h => ?_, fun ps h => ?_, ?_, fun str pos n one h => ?_⟩
  · obtain ⟨s, e, hl, hb⟩ := ofU64_spec hw h v
    exact ⟨s, e, fun i hi => by rw [get_bits hw0 (by rw [hl]; omega), hb i (by omega)]⟩
  · obtain ⟨s, e, hl, hb⟩ := placeBits_spec hw0 ps (empty w N) (fun p hp => by
      rw [length_empty]; have := h p hp; omega)
    rw [length_empty] at hl
    exact ⟨s, e, fun i hi => by
      rw [get_bits hw0 (by rw [hl]; omega), hb i, bits_empty, Bool.or_false]⟩
  · obtain ⟨s, e, hl, hb⟩ := allBits_spec hw0 N
    exact ⟨s, e, fun i hi => by rw [get_bits hw0 (by rw [hl]; omega), hb i]; simp [hi]⟩
  · obtain ⟨s, e, hl, hb⟩ := ofString_spec hw0 (N := N) (n := n) one h
    exact ⟨s, e, fun i hi => by rw [get_bits hw0 (by rw [hl]; omega), hb i]⟩

/-- **C16, `to<T>`.** On any contents, if the conversion compiles it is defined and its value has bit
`i` set exactly for the set positions below `N`.  (`sameType` requires equal widths.) -/
theorem C16_bitset_to {w : Nat} (hw : 0 < w) {N u : Nat} {sameType : Bool} (hsame : sameType = true → u = w)
    {s : Words w} (hs : s.length = storageSize w N)
    {x : Outcome (BitVec u)} (h : to N u sameType s = some x) :
    ∃ r, x = .ok r ∧ ∀ i, (i < N → get s i = .ok (r.getLsbD i)) ∧ (N ≤ i → r.getLsbD i = false) := by
  have hB := storage_bounds hw N
  unfold to at h
  split at h
  · cases h
  · rename_i h1
    have h1' : N ≤ u ∧ w ≤ u := by omega
    have hwu : u = w → N ≤ w := by omega
    split at h
    · rename_i h0
      subst h0
      cases h
      exact ⟨_, rfl, fun i => ⟨fun hi => by omega, fun _ => by simp⟩⟩
    · rename_i h0
      have hN : 0 < N := by omega
      have hp := storageSize_pos hw hN
      have one_word : N ≤ w → storageSize w N = 1 := by
        intro hle
        have : storageSize w N * w < 2 * w := by omega
        have := Nat.lt_of_mul_lt_mul_right this
        omega
      obtain ⟨hb, ehb, hbits⟩ := highbits_spec hw hN hs
      cases h
      cases hst : sameType
      · simp only [Bool.false_eq_true, ↓reduceIte, ehb, Outcome.ok_bind]
        rcases Nat.lt_or_ge w u with hlt | hge
        · obtain ⟨r, e, hr⟩ := toLoop_spec (s := s) hlt hw (storageSize w N - 1) (hb.setWidth u) (by omega)
          refine ⟨r, e, fun i => ?_⟩
          have hsz : (storageSize w N - 1) * w = storageSize w N * w - w := by rw [Nat.sub_mul, Nat.one_mul]
          have hle2 : w ≤ storageSize w N * w := Nat.le_mul_of_pos_left w hp
          constructor
          · intro hi
            rw [get_bits hw (by rw [hs]; omega), hr i (by omega)]
            by_cases h2 : i < (storageSize w N - 1) * w
            · rw [if_pos h2]
            · rw [if_neg h2, BitVec.getLsbD_setWidth, hbits _ (by omega),
                show (storageSize w N - 1) * w + (i - (storageSize w N - 1) * w) = i by omega]
              simp [hi]; intro _; omega
          · intro hi
            rcases Nat.lt_or_ge i u with h3 | h3
            · rw [hr i h3, if_neg (by omega), BitVec.getLsbD_setWidth]
              rcases Nat.lt_or_ge (i - (storageSize w N - 1) * w) w with h4 | h4
              · rw [hbits _ h4, show (storageSize w N - 1) * w + (i - (storageSize w N - 1) * w) = i by omega]
                simp; omega
              · rw [BitVec.getLsbD_of_ge hb _ h4]; simp
            · exact BitVec.getLsbD_of_ge _ _ h3
        · have huw : u = w := by omega
          have hle := hwu huw
          subst huw
          rw [one_word hle] at hbits ⊢
          refine ⟨hb.setWidth u, rfl, fun i => ⟨fun hi => ?_, fun hi => ?_⟩⟩
          · rw [get_bits hw (by rw [hs]; omega)]
            have := hbits i (by omega)
            simp only [Nat.sub_self, Nat.zero_mul, Nat.zero_add, hi, decide_true, Bool.true_and] at this
            simp [this]
          · rcases Nat.lt_or_ge i u with h4 | h4
            · have := hbits i h4
              simp only [Nat.sub_self, Nat.zero_mul, Nat.zero_add, show ¬ i < N by omega, decide_false,
                Bool.false_and] at this
              simp [this]
            · exact BitVec.getLsbD_of_ge _ _ h4
      · have huw := hsame hst
        subst huw
        have hle : N ≤ u := h1'.1
        have hone := one_word hle
        simp only [↓reduceIte]
        rw [arrGet_wd (show 0 < s.length by omega)]
        refine ⟨_, rfl, fun i => ⟨fun hi => ?_, fun hi => ?_⟩⟩
        · rw [get_bits hw (by rw [hs]; omega)]
          have h5 : bits s i = (wd s 0).getLsbD i := by
            have := bits_mk (s := s) (j := 0) (show i < u by omega)
            simpa using this
          have h6 := lastmask_spec hw hN (show i < u by omega)
          rw [hone] at h6
          simp only [Nat.sub_self, Nat.zero_mul, Nat.zero_add, hi, decide_true] at h6
          simp [h5, h6]
        · rcases Nat.lt_or_ge i u with h4 | h4
          · have h6 := lastmask_spec hw hN h4
            rw [hone] at h6
            simp only [Nat.sub_self, Nat.zero_mul, Nat.zero_add, show ¬ i < N by omega, decide_false] at h6
            simp [h6]
          · exact BitVec.getLsbD_of_ge _ _ h4

/-- **C16, round trip.** `bitset<N>(v).to<T>()` is `v mod 2^N`. -/
theorem C16_bitset_value_round_trip_partial {w : Nat} (hw : StdWidth w) {N u : Nat} {sameType : Bool}
    (hsame : sameType = true → u = w) (hN : N ≠ 0 ∨ w ≠ 64) (v : BitVec 64)
    (hu : N ≤ u) (hwu : w ≤ u) :
    ∃ s, ofU64 w N v = .ok s ∧ ∃ r, to N u sameType s = some (.ok r) ∧ r.toNat = v.toNat % 2 ^ N := by
  have hw0 := StdWidth.pos hw
  obtain ⟨s, e, hl, hb⟩ := ofU64_spec hw hN v
  have hB := storage_bounds hw0 N
  obtain ⟨x, hx⟩ : ∃ x, to N u sameType s = some x := by
    unfold to
    rw [if_neg (by omega)]
    split
    · exact ⟨_, rfl⟩
    · exact ⟨_, rfl⟩
  obtain ⟨r, er, hr⟩ := C16_bitset_to hw0 hsame hl hx
  refine ⟨s, e, r, by rw [hx, er], ?_⟩
  apply Nat.eq_of_testBit_eq
  intro i
  rw [Nat.testBit_mod_two_pow]
  by_cases h : i < N
  · have := (hr i).1 h
    rw [get_bits hw0 (by rw [hl]; omega), hb i (by omega)] at this
    simp only [Outcome.ok.injEq] at this
    simp only [h, decide_true, Bool.true_and]
    exact this.symm
  · simp only [h, decide_false, Bool.false_and]
    exact (hr i).2 (by omega)

/-- **C16, `to_natural`.** For a capacity of at most 64 and words no wider than the smallest type that
holds the capacity (the default word type among them), `to_natural()` compiles, is defined and has
bit `i` set exactly for the set positions below `N`. -/
theorem C16_bitset_to_natural {w : Nat} (hw : 0 < w) {N : Nat} (hN : N ≤ 64)
    (hwn : w ≤ BitMask.smallestUint N) {sameType : Bool}
    (hsame : sameType = true → BitMask.smallestUint N = w) {s : Words w}
    (hs : s.length = storageSize w N) :
    ∃ r, toNatural N sameType s = some (.ok r) ∧
      ∀ i, (i < N → get s i = .ok (r.getLsbD i)) ∧ (N ≤ i → r.getLsbD i = false) := by
  have hle := (BitMask.C08_smallest_uint hN).2.1
  obtain ⟨x, hx⟩ : ∃ x, toNatural N sameType s = some x := by
    unfold toNatural to
    rw [if_neg (by omega)]
    split
    · exact ⟨_, rfl⟩
    · exact ⟨_, rfl⟩
  obtain ⟨r, er, hr⟩ := C16_bitset_to hw hsame hs hx
  exact ⟨r, by rw [hx, er], hr⟩

/-- **C16, compile-time strings.** A `bitset` made from a compile-time string of `L` characters has
capacity `L`, and bit `i` is set exactly when character `L - 1 - i` is `'1'`. -/
theorem C16_bitset_ct_string {w : Nat} (hw : StdWidth w) (str : List Char) (hlen : str.length < szMod) :
    ∃ s, ofCtString w str = .ok s ∧ s.length = storageSize w str.length ∧
      ∀ i (hi : i < str.length), get s i = .ok (decide (str[str.length - 1 - i] = '1')) := by
  have hw0 := StdWidth.pos hw
  have hB := storage_bounds hw0 str.length
  have hn : str.length ≤ 18446744073709551615 := by rw [szMod_lit] at hlen; omega
  unfold ofCtString
  revert hn
  generalize 18446744073709551615 = n
  intro hn
  obtain ⟨s, e, hl, hb⟩ := ofString_spec hw0 (N := str.length) (n := n) '1' (Nat.zero_le str.length)
  refine ⟨s, e, hl, fun i hi => ?_⟩
  rw [get_bits hw0 (by rw [hl]; omega), hb i, List.drop_zero, List.take_of_length_le hn, List.take_length,
    List.getElem?_reverse hi, List.getElem?_eq_getElem (by omega)]
  simp only [Option.some.injEq]

example : ofCtString 8 ['1', '1', '0', '1'] = .ok [0xd#8] := by decide

example : toNatural 11 false [0x2d#8, 0xf9#8] = some (.ok 0x12d#16) := by decide
example : ofU64 8 11 0x12d#64 = .ok [0x2d#8, 0x01#8] := by decide
example : to 11 16 false [0x2d#8, 0xf9#8] = some (.ok 0x12d#16) := by decide

end Verif.Bitset
