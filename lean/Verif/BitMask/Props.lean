import Verif.BitMask.Model

/-!
# Properties of `bit_mask`, `bit_destructure`, `smallest_uint` (C01, C02, C05, C08)
-/

namespace Verif.BitMask

theorem maskBits_spec {w bit : Nat} (h : bit ≤ w) : ∃ r, maskBits w bit = .ok r ∧
    ∀ i, r.getLsbD i = decide (i < bit) := by
  unfold maskBits
  by_cases e : bit = w
  · subst e
    exact ⟨BitVec.allOnes bit, by simp, by intro i; simp⟩
  · have hlt : bit < w := by omega
    exact ⟨_, by rw [if_neg e, cshl_ok hlt]; rfl, fun i => getLsbD_low_mask hlt⟩

/-- **C01.** For every width, every `lsb ≤ msb < w` and every bit position, the run-time form of
`bit_mask` is defined and has bit `i` set exactly when `lsb ≤ i ≤ msb`. -/
theorem C01_bit_mask {w msb lsb : Nat} (hw : w < szMod) (h1 : lsb ≤ msb) (h2 : msb < w) :
    ∃ r, bitMask w msb lsb = .ok r ∧ ∀ i, r.getLsbD i = decide (lsb ≤ i ∧ i ≤ msb) := by
  obtain ⟨a, ha, ha'⟩ := maskBits_spec (w := w) (bit := msb + 1) (by omega)
  obtain ⟨b, hb, hb'⟩ := maskBits_spec (w := w) (bit := lsb) (by omega)
  refine ⟨a ^^^ b, by simp [bitMask, szInc_of_lt h2 hw, ha, hb], fun i => ?_⟩
  rw [BitVec.getLsbD_xor, ha', hb']
  by_cases h3 : i < msb + 1 <;> by_cases h4 : i < lsb <;> simp [h3, h4] <;> omega

/-- **C01, compile-time form.** It is accepted exactly for `lsb ≤ msb < w`, and then has the same
value. -/
theorem C01_bit_mask_static {w msb lsb : Nat} (hw : w < szMod) :
    (bitMaskStatic w msb lsb = none ↔ ¬ (lsb ≤ msb ∧ msb < w)) ∧
    (lsb ≤ msb → msb < w → ∃ r, bitMaskStatic w msb lsb = some (.ok r) ∧
      ∀ i, r.getLsbD i = decide (lsb ≤ i ∧ i ≤ msb)) := by
  constructor
  · unfold bitMaskStatic; split <;> simp <;> omega
  · intro h1 h2
    obtain ⟨r, e, hr⟩ := C01_bit_mask hw h1 h2
    exact ⟨r, by simp [bitMaskStatic, h1, h2, e], hr⟩

/-- The full-width mask takes the special path and is all ones. -/
example : bitMask 64 63 0 = .ok (BitVec.allOnes 64) := rfl
example : bitMask 8 5 2 = .ok 0b00111100#8 := rfl

/-! ## Arrays -/

theorem fillLoop_spec {w : Nat} : ∀ (k : Nat) (r : List (BitVec w)) (p : Nat), p + k ≤ r.length →
    ∃ r', fillLoop w k r p = .ok (r', p + k) ∧ r'.length = r.length ∧
      ∀ j : Nat, r'[j]? = if p ≤ j ∧ j < p + k then some (BitVec.allOnes w) else r[j]? := by
  intro k
  induction k with
  | zero =>
    intro r p h
    exact ⟨r, rfl, rfl, fun j => by rw [if_neg (by omega)]⟩
  | succ k ih =>
    intro r p h
    obtain ⟨r', e, hl, hj⟩ := ih (r.set p (BitVec.allOnes w)) (p + 1) (by simp; omega)
    refine ⟨r', ?_, by simpa using hl, fun j => ?_⟩
    · have hm : maskBits w w = .ok (BitVec.allOnes w) := by simp [maskBits]
      simp only [fillLoop, hm, Outcome.ok_bind]
      rw [arrSet_of_lt (by omega)]
      simp only [Outcome.ok_bind, e]
      congr 2; omega
    · rw [hj j]
      by_cases h1 : p + 1 ≤ j ∧ j < p + 1 + k
      · rw [if_pos h1, if_pos (by omega)]
      · rw [if_neg h1]
        by_cases h2 : j = p
        · subst h2
          rw [if_pos (by omega), List.getElem?_set_self (by omega)]
        · rw [if_neg (by omega), List.getElem?_set_ne (by omega)]

theorem maskBitsArr_spec {w n bit : Nat} (hw : 0 < w) (h : bit ≤ n * w) :
    ∃ r, maskBitsArr w n bit = .ok r ∧ r.length = n ∧
      ∀ j, j < n → ∃ x, r[j]? = some x ∧ ∀ i, i < w → x.getLsbD i = decide (j * w + i < bit) := by
  have hdm := Nat.div_add_mod bit w
  have hm := Nat.mod_lt bit hw
  have hq : bit / w ≤ n := by
    apply Nat.div_le_of_le_mul; rwa [Nat.mul_comm]
  obtain ⟨r, e, hl, hj⟩ := fillLoop_spec (bit / w) (List.replicate n 0#w) 0 (by simpa using hq)
  simp only [Nat.zero_add, List.length_replicate, Nat.zero_le, true_and] at e hl hj
  have hdm' : bit / w * w + bit % w = bit := by rw [Nat.mul_comm]; exact hdm
  have hlow : ∀ j i, j < bit / w → i < w → j * w + i < bit := by
    intro j i h1 h2
    have : (j + 1) * w ≤ bit / w * w := Nat.mul_le_mul_right w h1
    rw [Nat.add_mul] at this; omega
  have hhigh : ∀ j i, bit / w < j → ¬ j * w + i < bit := by
    intro j i h1
    have : (bit / w + 1) * w ≤ j * w := Nat.mul_le_mul_right w h1
    rw [Nat.add_mul] at this; omega
  by_cases hr : bit % w = 0
  · refine ⟨r, by simp [maskBitsArr, e, hr], hl, fun j hjn => ?_⟩
    rw [hj j]
    by_cases h1 : j < bit / w
    · refine ⟨BitVec.allOnes w, by simp [h1], fun i hi => ?_⟩
      simp [hi, hlow j i h1 hi]
    · refine ⟨0#w, by simp [h1, hjn], fun i hi => ?_⟩
      have : ¬ j * w + i < bit := by
        have : bit / w * w ≤ j * w := Nat.mul_le_mul_right w (by omega)
        omega
      simp [this]
  · obtain ⟨v, ev, hv⟩ := maskBits_spec (w := w) (bit := bit % w) (by omega)
    have hqn : bit / w < n := by
      rcases Nat.lt_or_ge (bit / w) n with h1 | h1
      · exact h1
      · have : n * w ≤ bit / w * w := Nat.mul_le_mul_right w h1
        omega
    refine ⟨r.set (bit / w) v, ?_, by simpa using hl, fun j hjn => ?_⟩
    · simp [maskBitsArr, e, hr, ev, arrSet, hl, hqn]
    · by_cases h1 : j < bit / w
      · refine ⟨BitVec.allOnes w, ?_, fun i hi => ?_⟩
        · rw [List.getElem?_set_ne (by omega), hj j, if_pos h1]
        · simp [hi, hlow j i h1 hi]
      · by_cases h2 : j = bit / w
        · subst h2
          refine ⟨v, List.getElem?_set_self (by omega), fun i hi => ?_⟩
          rw [hv]
          have : (i < bit % w) ↔ (bit / w * w + i < bit) := by omega
          simp [this]
        · refine ⟨0#w, ?_, fun i hi => ?_⟩
          · rw [List.getElem?_set_ne (by omega), hj j, if_neg (by omega)]; simp [hjn]
          · simp [hhigh j i (by omega)]

theorem subLoop_spec {w n : Nat} {x y : List (BitVec w)} (hx : x.length = n) (hy : y.length = n) :
    ∀ (k i : Nat) (r : List (BitVec w)), r.length = n → i + k = n →
    ∃ r', subLoop x y k i r = .ok r' ∧ r'.length = n ∧
      ∀ j, j < n → r'[j]? = if i ≤ j then (do let a ← x[j]?; let b ← y[j]?; some (a ^^^ b)) else r[j]? := by
  intro k
  induction k with
  | zero =>
    intro i r hr hi
    exact ⟨r, rfl, hr, fun j hj => by rw [if_neg (by omega)]⟩
  | succ k ih =>
    intro i r hr hi
    have hxi : i < x.length := by omega
    have hyi : i < y.length := by omega
    obtain ⟨r', e, hl, hj⟩ := ih (i + 1) (r.set i (x[i] ^^^ y[i])) (by simpa using hr) (by omega)
    refine ⟨r', ?_, hl, fun j hjn => ?_⟩
    · simp [subLoop, arrGet, hxi, hyi, arrSet, hr, show i < n by omega, e]
    · rw [hj j hjn]
      by_cases h1 : i + 1 ≤ j
      · rw [if_pos h1, if_pos (by omega)]
      · rw [if_neg h1]
        by_cases h2 : j = i
        · subst h2
          rw [List.getElem?_set_self (by omega)]; simp [hxi, hyi]
        · rw [List.getElem?_set_ne (by omega), if_neg (by omega)]

/-- **C02.** For every word width, array length, `lsb ≤ msb < n * w`: the array form of `bit_mask`
is defined (no out-of-bounds write, no undefined shift) and bit `i` of word `j` is set exactly
when `lsb ≤ j * w + i ≤ msb`. -/
theorem C02_bit_mask_array {w n msb lsb : Nat} (hw : 0 < w) (hs : n * w < szMod) (h1 : lsb ≤ msb)
    (h2 : msb < n * w) :
    ∃ r, bitMaskArr w n msb lsb = .ok r ∧ r.length = n ∧
      ∀ j i, j < n → i < w → ∃ x, r[j]? = some x ∧
        x.getLsbD i = decide (lsb ≤ j * w + i ∧ j * w + i ≤ msb) := by
  obtain ⟨a, ea, hla, ha⟩ := maskBitsArr_spec (w := w) (n := n) (bit := msb + 1) hw (by omega)
  obtain ⟨b, eb, hlb, hb⟩ := maskBitsArr_spec (w := w) (n := n) (bit := lsb) hw (by omega)
  obtain ⟨r, e, hl, hr⟩ := subLoop_spec hla hlb n 0 (List.replicate n 0#w) (by simp) (by omega)
  refine ⟨r, by simp [bitMaskArr, szInc_of_lt h2 hs, ea, eb, e], hl, fun j i hj hi => ?_⟩
  obtain ⟨xa, ex, hxa⟩ := ha j hj
  obtain ⟨xb, ey, hxb⟩ := hb j hj
  refine ⟨xa ^^^ xb, by rw [hr j hj]; simp [ex, ey], ?_⟩
  rw [BitVec.getLsbD_xor, hxa i hi, hxb i hi]
  by_cases h3 : j * w + i < msb + 1 <;> by_cases h4 : j * w + i < lsb <;> simp [h3, h4] <;> omega

/-- A range that crosses a word boundary and ends on one. -/
example : bitMaskArr 8 3 15 6 = .ok [0xc0#8, 0xff#8, 0x00#8] := rfl

/-! ## `bit_destructure` -/

/-- Split points: strictly increasing, above `prev`, and below the width. -/
def Increasing (prev : Nat) : List Nat → Nat → Prop
  | [], w => prev < w
  | o :: os, w => prev < o ∧ Increasing o os w

/-- The half-open bit ranges between consecutive split points. -/
def ranges (prev : Nat) : List Nat → Nat → List (Nat × Nat)
  | [], w => [(prev, w)]
  | o :: os, w => (prev, o) :: ranges o os w

theorem increasing_lt {w : Nat} : ∀ (os : List Nat) (p : Nat), Increasing p os w → p < w
  | [], _, h => h
  | o :: os, _, h => by have := increasing_lt os o h.2; have := h.1; omega

theorem sz_sub {a b : Nat} (h1 : b ≤ a) (h2 : a < szMod) : (a + (szMod - b)) % szMod = a - b := by
  have : a + (szMod - b) = (a - b) + szMod := by omega
  rw [this, Nat.add_mod_right, Nat.mod_eq_of_lt (by omega)]

/-- What a field must be: bits `[lo, hi)` of `v`. -/
def IsField {w : Nat} (v f : BitVec w) (lo hi : Nat) : Prop :=
  ∀ i, f.getLsbD i = (decide (i < hi - lo) && v.getLsbD (lo + i))

theorem extractAll_spec {w : Nat} (v : BitVec w) (hw : w < szMod) :
    ∀ (os : List Nat) (prev shift : Nat) (t : BitVec w), Increasing prev os w →
    shift < w → (∀ i, (t >>> shift).getLsbD i = v.getLsbD (prev + i)) →
    ∃ fs, extractAll shift (shiftDiffs prev (os ++ [w])) t = some (.ok fs) ∧
      fs.length = os.length + 1 ∧
      ∀ (k : Nat) (f : BitVec w) (r : Nat × Nat), fs[k]? = some f → (ranges prev os w)[k]? = some r → IsField v f r.1 r.2 := by
  have one : ∀ (lo hi shift : Nat) (t : BitVec w), lo < hi → hi ≤ w → shift < w →
      (∀ i, (t >>> shift).getLsbD i = v.getLsbD (lo + i)) →
      ∃ m, shiftExtract shift (szDec ((hi + (szMod - lo)) % szMod)) t =
        some (.ok (t >>> shift, t >>> shift &&& m)) ∧ IsField v (t >>> shift &&& m) lo hi := by
    intro lo hi shift t h1 h2 h3 h4
    rw [sz_sub (by omega) (by omega), szDec_of_pos (by omega)]
    obtain ⟨m, em, hm⟩ := (C01_bit_mask_static (msb := hi - lo - 1) (lsb := 0) hw).2 (by omega) (by omega)
    refine ⟨m, by simp [shiftExtract, em, cshr_ok h3], fun i => ?_⟩
    rw [BitVec.getLsbD_and, h4, hm, Bool.and_comm]
    congr 1
    by_cases h5 : i ≤ hi - lo - 1
    · rw [decide_eq_true (by omega), decide_eq_true (by omega)]
    · rw [decide_eq_false (by omega), decide_eq_false (by omega)]
  intro os
  induction os with
  | nil =>
    intro prev shift t hinc hs ht
    obtain ⟨m, e, hf⟩ := one prev w shift t hinc (by omega) hs ht
    refine ⟨[t >>> shift &&& m], ?_, rfl, ?_⟩
    · simp [shiftDiffs, extractAll, e]
    · intro k f r hk hr
      cases k with
      | zero => simp at hk; simp [ranges] at hr; subst hk hr; exact hf
      | succ k => simp at hk
  | cons o os ih =>
    intro prev shift t hinc hs ht
    have how := increasing_lt os o hinc.2
    obtain ⟨m, e, hf⟩ := one prev o shift t hinc.1 (by omega) hs ht
    have hd : (o + (szMod - prev)) % szMod = o - prev := sz_sub (by have := hinc.1; omega) (by omega)
    obtain ⟨fs, e2, hl, h2⟩ := ih o (o - prev) (t >>> shift) hinc.2 (by omega) (by
      intro i
      have := hinc.1
      rw [BitVec.getLsbD_ushiftRight, ht]; congr 1; omega)
    refine ⟨(t >>> shift &&& m) :: fs, ?_, by simp [hl], ?_⟩
    · rw [hd] at e
      simp only [List.cons_append, shiftDiffs, extractAll, hd, e]
      rw [e2]; simp
    · intro k f r hk hr
      cases k with
      | zero => simp at hk; simp [ranges] at hr; subst hk hr; exact hf
      | succ k =>
        simp at hk
        simp [ranges] at hr
        exact h2 k f r hk hr

/-- **C05, fields.** For every width, every strictly increasing list of split points strictly
between 0 and the width, and every value: the program is accepted, no shift is undefined, there is
one field more than split points and field `k` is bits `[s_k, s_{k+1})` of the value. -/
theorem C05_bit_destructure_fields_partial {w : Nat} (hw : w < szMod) (v : BitVec w) {os : List Nat}
    (h : Increasing 0 os w) :
    ∃ fs, bitDestructure os v = some (.ok fs) ∧ fs.length = os.length + 1 ∧
      ∀ (k : Nat) (f : BitVec w) (r : Nat × Nat), fs[k]? = some f → (ranges 0 os w)[k]? = some r → IsField v f r.1 r.2 := by
  have h0 := increasing_lt os 0 h
  exact extractAll_spec v hw os 0 0 v h h0 (by intro i; simp)

theorem extractAll_accepted {w : Nat} (hw : w < szMod) : ∀ (ds : List Nat) (shift : Nat) (t : BitVec w), extractAll shift ds t ≠ none →
    ∀ d ∈ ds, 0 < d ∧ d ≤ w := by
  intro ds
  induction ds with
  | nil => simp
  | cons s ss ih =>
    intro shift t h
    have hd : 0 < s ∧ s ≤ w := by
      have h1 : shiftExtract shift (szDec s) t ≠ none := by
        intro e
        rw [extractAll, e] at h
        exact h rfl
      have h2 : bitMaskStatic w (szDec s) 0 ≠ none := by
        intro e
        rw [shiftExtract, e] at h1
        exact h1 rfl
      have h3 : szDec s < w := by
        unfold bitMaskStatic at h2
        by_cases hc : szDec s < w ∧ szDec s ≥ 0
        · exact hc.1
        · rw [if_neg hc] at h2; exact absurd rfl h2
      unfold szDec at h3
      rw [szMod_lit] at hw
      split at h3 <;> omega
    have hrest : ∃ (sh : Nat) (t' : BitVec w), extractAll sh ss t' ≠ none := by
      rw [extractAll] at h
      match he : shiftExtract shift (szDec s) t with
      | none => rw [he] at h; exact absurd rfl h
      | some .ub =>
        rw [he] at h
        refine ⟨s, t, fun e => h ?_⟩
        simp only [e]; rfl
      | some .panic =>
        rw [he] at h
        refine ⟨s, t, fun e => h ?_⟩
        simp only [e]; rfl
      | some (.ok (t', f)) =>
        rw [he] at h
        refine ⟨s, t', fun e => h ?_⟩
        simp only [e]
    obtain ⟨sh, t', hr⟩ := hrest
    intro d hd'
    rcases List.mem_cons.mp hd' with rfl | hd'
    · exact hd
    · exact ih sh t' hr d hd'

theorem diffs_increasing {w : Nat} (hw : w < szMod) : ∀ (os : List Nat) (prev : Nat), prev + (os.length + 1) * w < szMod → (∀ o ∈ os, o < szMod) →
    (∀ d ∈ shiftDiffs prev (os ++ [w]), 0 < d ∧ d ≤ w) → Increasing prev os w := by
  have step : ∀ prev o, prev + w < szMod → o < szMod → 0 < (o + (szMod - prev)) % szMod → (o + (szMod - prev)) % szMod ≤ w →
      prev < o ∧ o ≤ prev + w := by
    intro prev o h1 h2 h3 h4
    rw [szMod_lit] at *
    omega
  intro os
  induction os with
  | nil =>
    intro prev h1 _ h3
    have := h3 _ (List.mem_cons_self ..)
    simp at h1
    exact (step prev w h1 hw this.1 this.2).1
  | cons o os ih =>
    intro prev h1 h2 h3
    rw [List.cons_append, shiftDiffs] at h3
    have h4 := h3 _ (List.mem_cons_self ..)
    rw [List.length_cons, Nat.succ_mul] at h1
    have h5 := step prev o (by omega) (h2 o (by simp)) h4.1 h4.2
    exact ⟨h5.1, ih o (by omega) (fun x hx => h2 x (by simp [hx])) fun d hd => h3 d (List.mem_cons_of_mem _ hd)⟩

/-- **C05, rejection.** Split points that are not strictly increasing between 0 and the width do not compile.  (The bound on their
number keeps the sum of the differences from wrapping round `std::size_t`.) -/
theorem C05_bit_destructure_rejects {w : Nat} (v : BitVec w) {os : List Nat} (hos : ∀ o ∈ os, o < szMod)
    (hl : (os.length + 1) * w < szMod) (h : ¬ Increasing 0 os w) : bitDestructure os v = none := by
  have hw : w < szMod := by rw [Nat.succ_mul] at hl; omega
  apply Classical.byContradiction
  intro hne
  exact h (diffs_increasing hw os 0 (by rw [Nat.zero_add]; exact hl) hos (extractAll_accepted hw _ _ _ hne))

/-- **C05 (negation).** A first split point of zero, whose first field would have no bits, does not compile, although
it is below the width. -/
theorem C05_zero_split_violated {w : Nat} (v : BitVec w) {os : List Nat} (hos : ∀ o ∈ os, o < szMod)
    (hl : (os.length + 2) * w < szMod) : bitDestructure (0 :: os) v = none := by
  refine C05_bit_destructure_rejects v ?_ hl ?_
  · intro o ho
    rcases List.mem_cons.1 ho with rfl | h
    · rw [szMod_lit]; omega
    · exact hos o h
  · intro h
    exact absurd h.1 (by omega)

example : (∀ o ∈ [4, 7], o < szMod) ∧ ([4, 7].length + 2) * 16 < szMod := by
  rw [szMod_lit]; simp

example : ¬ Increasing 0 [4, 4] 16 ∧ bitDestructure [4, 4] 0xa5b6#16 = none := by
  constructor
  · simp [Increasing]
  · rfl

/-- The shifted sum of the fields. -/
def recombine {w : Nat} : List (BitVec w) → List (Nat × Nat) → Nat
  | f :: fs, r :: rs => f.toNat * 2 ^ r.1 + recombine fs rs
  | _, _ => 0

theorem isField_toNat {w lo hi : Nat} {v f : BitVec w} (h : IsField v f lo hi) (h1 : lo ≤ hi) :
    f.toNat = v.toNat / 2 ^ lo % 2 ^ (hi - lo) := by
  apply Nat.eq_of_testBit_eq
  intro i
  have := h i
  rw [BitVec.getLsbD, BitVec.getLsbD] at this
  rw [this, Nat.testBit_mod_two_pow, Nat.testBit_div_two_pow, Nat.add_comm]

theorem recombine_spec {w : Nat} (v : BitVec w) : ∀ (os : List Nat) (prev : Nat) (fs : List (BitVec w)),
    Increasing prev os w → fs.length = os.length + 1 →
    (∀ (k : Nat) (f : BitVec w) (r : Nat × Nat), fs[k]? = some f → (ranges prev os w)[k]? = some r → IsField v f r.1 r.2) →
    recombine fs (ranges prev os w) = v.toNat / 2 ^ prev * 2 ^ prev := by
  intro os
  induction os with
  | nil =>
    intro prev fs hinc hl h
    match fs, hl with
    | [f], _ =>
      have := isField_toNat (h 0 f _ rfl rfl) (Nat.le_of_lt hinc)
      simp only [ranges, recombine, this, Nat.add_zero]
      rw [Nat.mod_eq_of_lt]
      apply Nat.div_lt_of_lt_mul
      rw [← Nat.pow_add]
      have hpw : prev < w := hinc
      have : prev + (w - prev) = w := by omega
      rw [this]; exact v.isLt
  | cons o os ih =>
    intro prev fs hinc hl h
    match fs, hl with
    | f :: fs, hl =>
      have hpo := hinc.1
      have hf := isField_toNat (h 0 f _ rfl rfl) (Nat.le_of_lt hpo)
      have := ih o fs hinc.2 (by simpa using hl) (fun k f r hk hr => h (k + 1) f r (by simpa using hk)
        (by simpa [ranges] using hr))
      simp only [ranges, recombine, this, hf]
      have e : 2 ^ o = 2 ^ prev * 2 ^ (o - prev) := by rw [← Nat.pow_add]; congr 1; omega
      rw [e, ← Nat.div_div_eq_div_mul]
      generalize v.toNat / 2 ^ prev = q
      generalize 2 ^ (o - prev) = m
      have := Nat.div_add_mod q m
      generalize 2 ^ prev = z at *
      calc q % m * z + q / m * (z * m) = (m * (q / m) + q % m) * z := by
            rw [Nat.add_mul]; rw [Nat.add_comm]; congr 1
            rw [Nat.mul_comm z m, ← Nat.mul_assoc, Nat.mul_comm (q / m) m]
        _ = q * z := by rw [this]

/-- **C05, recombination.** The sum of the fields, each shifted to its start, is the value. -/
theorem C05_bit_destructure_sum_partial {w : Nat} (hw : w < szMod) (v : BitVec w) {os : List Nat}
    (h : Increasing 0 os w) :
    ∃ fs, bitDestructure os v = some (.ok fs) ∧ recombine fs (ranges 0 os w) = v.toNat := by
  obtain ⟨fs, e, hl, hf⟩ := C05_bit_destructure_fields_partial hw v h
  exact ⟨fs, e, by rw [recombine_spec v os 0 fs h hl hf]; simp⟩

example : Increasing 0 [4, 7] 16 := by simp [Increasing]
example : bitDestructure [4, 7] 0xa5b6#16 = some (.ok [0x6#16, 0x3#16, 0x14b#16]) := rfl

/-! ## `smallest_uint` -/

/-- **C08.** For every bit count up to 64 the chosen width is a standard one, fits the count, is the
least standard one that does, and every value below `2^n` survives the conversion to it and
back. -/
theorem C08_smallest_uint {n : Nat} (h : n ≤ 64) :
    smallestUint n ∈ [8, 16, 32, 64] ∧ n ≤ smallestUint n ∧
    (∀ w ∈ [8, 16, 32, 64], n ≤ w → smallestUint n ≤ w) ∧
    ∀ v, v < 2 ^ n → (BitVec.ofNat (smallestUint n) v).toNat = v := by
  have h2 : n ≤ smallestUint n := by unfold smallestUint; grind
  refine ⟨?_, h2, ?_, ?_⟩
  · unfold smallestUint; grind
  · intro w hw hn
    simp at hw
    unfold smallestUint
    grind
  · intro v hv
    rw [BitVec.toNat_ofNat, Nat.mod_eq_of_lt]
    exact Nat.lt_of_lt_of_le hv (Nat.pow_le_pow_right (by omega) h2)

example : smallestUint 17 = 32 := rfl

end Verif.BitMask
