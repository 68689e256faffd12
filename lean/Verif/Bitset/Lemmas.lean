import Verif.Bitset.Model
import Verif.BitOps.PropsCount

/-!
# Bit-level facts about the storage operations of `bitset`
-/

namespace Verif.Bitset

open Verif.BitOps

/-- Word `j` of the storage (zero outside). -/
def wd {w : Nat} (s : Words w) (j : Nat) : BitVec w := (s[j]?).getD 0#w

/-- Bit `i` of the storage (false outside). -/
def bits {w : Nat} (s : Words w) (i : Nat) : Bool := (wd s (i / w)).getLsbD (i % w)

theorem wd_of_lt {w : Nat} {s : Words w} {j : Nat} (h : j < s.length) : s[j]? = some (wd s j) := by
  simp [wd, h]

theorem arrGet_wd {w : Nat} {s : Words w} {j : Nat} (h : j < s.length) :
    arrGet s j = .ok (wd s j) := by simp [arrGet, wd_of_lt h]

theorem wd_ge {w : Nat} {s : Words w} {j : Nat} (h : s.length ≤ j) : wd s j = 0#w := by
  simp [wd, h]

theorem wd_set {w : Nat} {s : Words w} {d j : Nat} {v : BitVec w} (h : d < s.length) :
    wd (s.set d v) j = if j = d then v else wd s j := by
  unfold wd
  by_cases e : j = d
  · subst e; simp [h]
  · rw [List.getElem?_set_ne (by omega), if_neg e]

theorem bits_mk {w : Nat} {s : Words w} {j k : Nat} (hk : k < w) :
    bits s (j * w + k) = (wd s j).getLsbD k := by
  unfold bits
  rw [Nat.mul_comm, Nat.mul_add_div (by omega), Nat.mul_add_mod, Nat.div_eq_of_lt hk,
    Nat.mod_eq_of_lt hk, Nat.add_zero]

theorem split_pos {w : Nat} (hw : 0 < w) (i : Nat) : ∃ j k, i = j * w + k ∧ k < w ∧ i / w = j ∧ i % w = k :=
  ⟨i / w, i % w, by rw [Nat.mul_comm]; exact (Nat.div_add_mod i w).symm, Nat.mod_lt i hw, rfl, rfl⟩

theorem pos_eq_iff {w j k j' k' : Nat} (hk : k < w) (hk' : k' < w) :
    j * w + k = j' * w + k' ↔ j = j' ∧ k = k' := by
  constructor
  · intro h
    have h1 : j = j' := by
      rcases Nat.lt_trichotomy j j' with h2 | h2 | h2
      · have : (j + 1) * w ≤ j' * w := Nat.mul_le_mul_right w h2
        rw [Nat.add_mul] at this; omega
      · exact h2
      · have : (j' + 1) * w ≤ j * w := Nat.mul_le_mul_right w h2
        rw [Nat.add_mul] at this; omega
    subst h1
    exact ⟨rfl, by omega⟩
  · rintro ⟨rfl, rfl⟩; rfl

theorem pos_lt_iff {w j k n : Nat} (hk : k < w) : j * w + k < n * w ↔ j < n := by
  constructor
  · intro h
    rcases Nat.lt_or_ge j n with h1 | h1
    · exact h1
    · have : n * w ≤ j * w := Nat.mul_le_mul_right w h1
      omega
  · intro h
    have : (j + 1) * w ≤ n * w := Nat.mul_le_mul_right w h
    rw [Nat.add_mul] at this; omega

theorem storage_bounds {w : Nat} (hw : 0 < w) (N : Nat) :
    N ≤ storageSize w N * w ∧ storageSize w N * w < N + w := by
  unfold storageSize
  have h1 := Nat.div_add_mod (N + w - 1) w
  have h2 := Nat.mod_lt (N + w - 1) hw
  rw [Nat.mul_comm] at h1
  omega

theorem storageSize_pos {w N : Nat} (hw : 0 < w) (hN : 0 < N) : 0 < storageSize w N := by
  have := (storage_bounds hw N).1
  rcases Nat.eq_zero_or_pos (storageSize w N) with h | h
  · rw [h] at this; omega
  · exact h

theorem storageSize_zero {w : Nat} (hw : 0 < w) : storageSize w 0 = 0 := by
  unfold storageSize; exact Nat.div_eq_of_lt (by omega)

theorem index_lt {w i n : Nat} (h : i < n * w) : i / w < n := Nat.div_lt_of_lt_mul (by rwa [Nat.mul_comm])

theorem index_lt' {w i N : Nat} (hw : 0 < w) (h : i < N) : i / w < storageSize w N :=
  index_lt (Nat.lt_of_lt_of_le h (storage_bounds hw N).1)

theorem bits_ge {w : Nat} (hw : 0 < w) {s : Words w} {i : Nat} (h : s.length * w ≤ i) : bits s i = false := by
  unfold bits
  rw [wd_ge]
  · simp
  · exact (Nat.le_div_iff_mul_le hw).mpr h

theorem getLsbD_one_shl {w k j : Nat} (hk : k < w) : (1#w <<< k).getLsbD j = decide (j = k) := by
  rw [BitVec.getLsbD_shiftLeft, BitVec.getLsbD_one]
  by_cases h : j = k
  · subst h; simp; omega
  · by_cases h1 : j < k <;> simp [h, h1]; omega

theorem and_one_shl {w k : Nat} (hk : k < w) (e : BitVec w) :
    ((e &&& (1#w <<< k)) != 0#w) = e.getLsbD k := by
  cases h : e.getLsbD k
  · have : e &&& (1#w <<< k) = 0#w := by
      apply BitVec.eq_of_getLsbD_eq
      intro i hi
      rw [BitVec.getLsbD_and, getLsbD_one_shl hk]
      by_cases h1 : i = k
      · subst h1; simp [h]
      · simp [h1]
    simp [this]
  · have : e &&& (1#w <<< k) ≠ 0#w := by
      intro h1
      have := congrArg (fun x => x.getLsbD k) h1
      simp [BitVec.getLsbD_and, getLsbD_one_shl hk, h] at this
    simpa using this

/-- `operator[]` reads the bit. -/
theorem get_bits {w : Nat} (hw : 0 < w) {s : Words w} {i : Nat} (h : i < s.length * w) :
    get s i = .ok (bits s i) := by
  have h1 := index_lt h
  have h2 := Nat.mod_lt i hw
  simp only [get, arrGet_wd h1, cshl_ok h2, Outcome.ok_bind, Outcome.pure_eq_ok, and_one_shl h2]
  rfl

/-! ## Single bits -/

/-- Replacing one word. -/
theorem bits_set_word {w : Nat} (hw : 0 < w) {s : Words w} {d : Nat} {v : BitVec w} (h : d < s.length) (i : Nat) :
    bits (s.set d v) i = if i / w = d then v.getLsbD (i % w) else bits s i := by
  unfold bits
  rw [wd_set h]
  split <;> rfl

theorem div_mod_ne {w i j : Nat} (h1 : i / w = j / w) (h2 : i % w = j % w) : i = j := by
  rw [← Nat.div_add_mod i w, ← Nat.div_add_mod j w, h1, h2]

theorem single_spec {w : Nat} (hw : 0 < w) {s : Words w} {i : Nat} (h : i < s.length * w)
    (g : BitVec w → BitVec w → BitVec w) (gb : Bool → Bool)
    (hg : ∀ e k j, k < w → j < w → (g e (1#w <<< k)).getLsbD j = if j = k then gb (e.getLsbD j) else e.getLsbD j) :
    arrSet s (i / w) (g (wd s (i / w)) (1#w <<< (i % w))) =
      .ok (s.set (i / w) (g (wd s (i / w)) (1#w <<< (i % w)))) ∧
    ∀ j, bits (s.set (i / w) (g (wd s (i / w)) (1#w <<< (i % w)))) j =
      if j = i then gb (bits s j) else bits s j := by
  have h1 := index_lt h
  refine ⟨arrSet_of_lt h1, fun j => ?_⟩
  rw [bits_set_word hw h1]
  by_cases e1 : j / w = i / w
  · rw [if_pos e1, hg _ _ _ (Nat.mod_lt i hw) (Nat.mod_lt j hw)]
    by_cases e2 : j % w = i % w
    · rw [if_pos e2, if_pos (div_mod_ne e1 e2)]; unfold bits; rw [e1]
    · rw [if_neg e2, if_neg (by rintro rfl; exact e2 rfl)]; unfold bits; rw [e1]
  · rw [if_neg e1, if_neg (by rintro rfl; exact e1 rfl)]

theorem set_spec {w : Nat} (hw : 0 < w) {s : Words w} {i : Nat} (h : i < s.length * w) (v : Bool) :
    ∃ r, set s i v = .ok r ∧ r.length = s.length ∧
      ∀ j, bits r j = if j = i then v else bits s j := by
  have h1 := index_lt h
  have h2 := Nat.mod_lt i hw
  unfold set
  rw [arrGet_wd h1, cshl_ok h2]
  cases v
  · obtain ⟨a, b⟩ := single_spec hw h (fun e b => e &&& ~~~b) (fun _ => false) (by
      intro e k j hk hj
      rw [BitVec.getLsbD_and, BitVec.getLsbD_not, getLsbD_one_shl hk]
      by_cases h3 : j = k <;> simp [h3, hj])
    exact ⟨_, by simpa using a, by simp, b⟩
  · obtain ⟨a, b⟩ := single_spec hw h (fun e b => e ||| b) (fun _ => true) (by
      intro e k j hk hj
      rw [BitVec.getLsbD_or, getLsbD_one_shl hk]
      by_cases h3 : j = k <;> simp [h3])
    exact ⟨_, by simpa using a, by simp, b⟩

theorem reset_spec {w : Nat} (hw : 0 < w) {s : Words w} {i : Nat} (h : i < s.length * w) :
    ∃ r, reset s i = .ok r ∧ r.length = s.length ∧
      ∀ j, bits r j = if j = i then false else bits s j := by
  obtain ⟨r, e, hr⟩ := set_spec hw h false
  exact ⟨r, by simpa [set, reset] using e, hr⟩

theorem flip_spec {w : Nat} (hw : 0 < w) {s : Words w} {i : Nat} (h : i < s.length * w) :
    ∃ r, flip s i = .ok r ∧ r.length = s.length ∧
      ∀ j, bits r j = if j = i then !(bits s j) else bits s j := by
  have h1 := index_lt h
  have h2 := Nat.mod_lt i hw
  unfold flip
  rw [arrGet_wd h1, cshl_ok h2]
  obtain ⟨a, b⟩ := single_spec hw h (fun e b => e ^^^ b) (fun x => !x) (by
    intro e k j hk hj
    rw [BitVec.getLsbD_xor, getLsbD_one_shl hk]
    by_cases h3 : j = k <;> simp [h3])
  exact ⟨_, by simpa using a, by simp, b⟩

/-! ## Ranges -/

theorem applyMask_spec {w : Nat} {value : Bool} {s : Words w} {i : Nat} (h : i < s.length) (m : BitVec w) :
    ∃ r, applyMask value s i m = .ok r ∧ r.length = s.length ∧
      ∀ j k, k < w → (wd r j).getLsbD k = if j = i ∧ m.getLsbD k then value else (wd s j).getLsbD k := by
  unfold applyMask
  rw [arrGet_wd h]
  cases value
  · refine ⟨s.set i (wd s i &&& ~~~m), by simp [h], by simp, fun j k hk => ?_⟩
    rw [wd_set h]
    by_cases h1 : j = i
    · subst h1; rw [if_pos rfl, BitVec.getLsbD_and, BitVec.getLsbD_not]; cases h2 : m.getLsbD k <;> simp [hk]
    · simp [h1]
  · refine ⟨s.set i (wd s i ||| m), by simp [h], by simp, fun j k hk => ?_⟩
    rw [wd_set h]
    by_cases h1 : j = i
    · subst h1; cases h2 : m.getLsbD k <;> simp [h2]
    · simp [h1]

theorem rangeLoop_spec {w : Nat} {value : Bool} {mask : BitVec w} : ∀ (n : Nat) (s : Words w) (l m : Nat),
    l ≤ m → m ≤ s.length → m ≤ l + n →
    ∃ r, rangeLoop value mask n s l m = .ok (r, m) ∧ r.length = s.length ∧
      ∀ j k, k < w → (wd r j).getLsbD k =
        if l ≤ j ∧ j < m ∧ mask.getLsbD k then value else (wd s j).getLsbD k := by
  intro n
  induction n with
  | zero =>
    intro s l m h1 h2 h3
    obtain rfl : l = m := by omega
    exact ⟨s, by simp [rangeLoop], rfl, fun j k _ => by rw [if_neg (by omega)]⟩
  | succ n ih =>
    intro s l m h1 h2 h3
    by_cases e : l = m
    · subst e
      exact ⟨s, by simp [rangeLoop], rfl, fun j k _ => by rw [if_neg (by omega)]⟩
    · obtain ⟨r1, e1, hl1, hb1⟩ := applyMask_spec (value := value) (show l < s.length by omega) mask
      obtain ⟨r, e2, hl, hb⟩ := ih r1 (l + 1) m (by omega) (by omega) (by omega)
      refine ⟨r, by simp [rangeLoop, e, e1, e2], by omega, fun j k hk => ?_⟩
      rw [hb j k hk, hb1 j k hk]
      by_cases h4 : l + 1 ≤ j ∧ j < m ∧ mask.getLsbD k = true
      · rw [if_pos h4, if_pos ⟨by omega, h4.2⟩]
      · rw [if_neg h4]
        by_cases h5 : j = l
        · subst h5
          by_cases h6 : mask.getLsbD k = true
          · rw [if_pos ⟨rfl, h6⟩, if_pos ⟨by omega, by omega, h6⟩]
          · simp [h6]
        · rw [if_neg (by simp [h5]), if_neg (by
            rintro ⟨h6, h7, h8⟩; exact h4 ⟨by omega, h7, h8⟩)]

theorem getLsbD_ones_shl {w k j : Nat} (hj : j < w) :
    (BitVec.allOnes w <<< k).getLsbD j = decide (k ≤ j) := by
  rw [BitVec.getLsbD_shiftLeft]
  by_cases h : j < k
  · simp [h]
  · simp [h, hj, show k ≤ j by omega]; omega

theorem getLsbD_ones_shr {w k j : Nat} :
    (BitVec.allOnes w >>> k).getLsbD j = decide (k + j < w) := by
  rw [BitVec.getLsbD_ushiftRight]; simp

theorem setRangeTail_spec {w : Nat} (hw : 0 < w) {value : Bool} {s : Words w} {li m : Nat} {lmask : BitVec w}
    (h1 : li ≤ m / w) (h2 : m / w < s.length) :
    ∃ r, setRangeTail value s li (m / w) m lmask = .ok r ∧ r.length = s.length ∧
      ∀ j k, k < w → (wd r j).getLsbD k =
        if li ≤ j ∧ lmask.getLsbD k = true ∧ j * w + k ≤ m then value else (wd s j).getLsbD k := by
  have hm := Nat.mod_lt m hw
  obtain ⟨r1, e1, hl1, hb1⟩ := rangeLoop_spec (value := value) (mask := lmask) s.length s li (m / w)
    h1 (by omega) (by omega)
  obtain ⟨r, e2, hl, hb⟩ := applyMask_spec (value := value) (show m / w < r1.length by omega)
    (lmask &&& (BitVec.allOnes w >>> (w - m % w - 1)))
  refine ⟨r, by simp [setRangeTail, e1, cshr_ok (show w - m % w - 1 < w by omega), e2], by omega, ?_⟩
  intro j k hk
  rw [hb j k hk, hb1 j k hk, BitVec.getLsbD_and, getLsbD_ones_shr]
  have hmm : m / w * w + m % w = m := by rw [Nat.mul_comm]; exact Nat.div_add_mod m w
  have key : (j * w + k ≤ m) ↔ j < m / w ∨ (j = m / w ∧ k ≤ m % w) := by
    rcases Nat.lt_trichotomy j (m / w) with h3 | h3 | h3
    · have : (j + 1) * w ≤ m / w * w := Nat.mul_le_mul_right w h3
      rw [Nat.add_mul] at this
      constructor <;> omega
    · subst h3; constructor <;> omega
    · have : (m / w + 1) * w ≤ j * w := Nat.mul_le_mul_right w h3
      rw [Nat.add_mul] at this
      constructor <;> omega
  cases h4 : lmask.getLsbD k
  · simp
  · simp only [key, Bool.true_and, decide_eq_true_eq, true_and, and_true]
    by_cases h5 : j = m / w
    · subst h5
      by_cases h6 : k ≤ m % w
      · rw [if_pos ⟨rfl, by omega⟩, if_pos ⟨h1, Or.inr ⟨rfl, h6⟩⟩]
      · rw [if_neg (by omega), if_neg (by omega), if_neg (by omega)]
    · rw [if_neg (by omega)]
      by_cases h6 : li ≤ j ∧ j < m / w
      · rw [if_pos h6, if_pos ⟨h6.1, Or.inl h6.2⟩]
      · rw [if_neg h6, if_neg (by omega)]

theorem setRange_spec {w : Nat} (hw : 0 < w) {s : Words w} {l m : Nat} (hlm : l / w ≤ m / w)
    (h : m < s.length * w) (v : Bool) :
    ∃ r, setRange s l m v = .ok r ∧ r.length = s.length ∧
      ∀ i, bits r i = if l ≤ i ∧ i ≤ m then v else bits s i := by
  have hl := Nat.mod_lt l hw
  have hmi := index_lt h
  have hll : l / w * w + l % w = l := by rw [Nat.mul_comm]; exact Nat.div_add_mod l w
  have key : ∀ j k, k < w → (l ≤ j * w + k ↔ l / w < j ∨ (j = l / w ∧ l % w ≤ k)) := by
    intro j k hk
    rcases Nat.lt_trichotomy j (l / w) with h3 | h3 | h3
    · have : (j + 1) * w ≤ l / w * w := Nat.mul_le_mul_right w h3
      rw [Nat.add_mul] at this
      constructor <;> omega
    · subst h3; constructor <;> omega
    · have : (l / w + 1) * w ≤ j * w := Nat.mul_le_mul_right w h3
      rw [Nat.add_mul] at this
      constructor <;> omega
  unfold setRange
  rw [cshl_ok hl]
  by_cases e : l / w = m / w
  · obtain ⟨r, er, hlen, hb⟩ := setRangeTail_spec hw (value := v) (lmask := BitVec.allOnes w <<< (l % w))
      hlm hmi
    refine ⟨r, by simpa [e] using er, hlen, fun i => ?_⟩
    obtain ⟨j, k, rfl, hk, _, _⟩ := split_pos hw i
    rw [bits_mk hk, bits_mk hk, hb j k hk, getLsbD_ones_shl hk]
    simp only [decide_eq_true_eq, key j k hk]
    have : (j * w + k ≤ m) → j ≤ l / w := by
      intro h5
      have := Nat.div_le_div_right (c := w) h5
      rw [Nat.mul_comm, Nat.mul_add_div hw, Nat.div_eq_of_lt hk] at this
      omega
    grind
  · obtain ⟨r1, e1, hl1, hb1⟩ := applyMask_spec (value := v) (show l / w < s.length by omega)
      (BitVec.allOnes w <<< (l % w))
    obtain ⟨r, er, hlen, hb⟩ := setRangeTail_spec hw (value := v) (s := r1) (li := l / w + 1) (m := m)
      (lmask := BitVec.allOnes w) (by omega) (by omega)
    refine ⟨r, by simp [e, e1, er], by omega, fun i => ?_⟩
    obtain ⟨j, k, rfl, hk, _, _⟩ := split_pos hw i
    rw [bits_mk hk, bits_mk hk, hb j k hk, hb1 j k hk, getLsbD_ones_shl hk]
    simp only [key j k hk, BitVec.getLsbD_allOnes, hk, decide_true, true_and, decide_eq_true_eq]
    have : j = l / w → j * w + k ≤ m := by
      rintro rfl
      have h6 : (l / w + 1) * w ≤ m / w * w := Nat.mul_le_mul_right w (by omega)
      have h7 : m / w * w ≤ m := Nat.div_mul_le_self m w
      rw [Nat.add_mul] at h6
      omega
    grind

/-! ## Whole set -/

theorem wd_map {w : Nat} {s : Words w} {f : BitVec w → BitVec w} {j : Nat} (h : j < s.length) :
    wd (s.map f) j = f (wd s j) := by simp [wd, h]

theorem bits_map {w : Nat} (hw : 0 < w) {s : Words w} {f : BitVec w → BitVec w} {i : Nat} (h : i < s.length * w) :
    bits (s.map f) i = (f (wd s (i / w))).getLsbD (i % w) := by
  unfold bits; rw [wd_map (index_lt h)]

theorem setAll_bits {w : Nat} (hw : 0 < w) {s : Words w} {i : Nat} (h : i < s.length * w) :
    bits (setAll s) i = true := by
  rw [setAll, bits_map hw h]; simp [Nat.mod_lt i hw]

theorem resetAll_bits {w : Nat} (hw : 0 < w) {s : Words w} {i : Nat} (h : i < s.length * w) :
    bits (resetAll s) i = false := by
  rw [resetAll, bits_map hw h]; simp

theorem flipAll_bits {w : Nat} (hw : 0 < w) {s : Words w} {i : Nat} (h : i < s.length * w) :
    bits (flipAll s) i = !(bits s i) := by
  rw [flipAll, bits_map hw h]; simp [Nat.mod_lt i hw, bits]

theorem zipLoop_spec {w : Nat} {f : BitVec w → BitVec w → BitVec w} {rhs : Words w} :
    ∀ (k i : Nat) (s : Words w), i + k ≤ s.length → i + k ≤ rhs.length →
    ∃ r, zipLoop f rhs k i s = .ok r ∧ r.length = s.length ∧
      ∀ j, wd r j = if i ≤ j ∧ j < i + k then f (wd s j) (wd rhs j) else wd s j := by
  intro k
  induction k with
  | zero => intro i s _ _; exact ⟨s, rfl, rfl, fun j => by rw [if_neg (by omega)]⟩
  | succ k ih =>
    intro i s h1 h2
    have hi : i < s.length := by omega
    obtain ⟨r, e, hl, hb⟩ := ih (i + 1) (s.set i (f (wd s i) (wd rhs i))) (by simp; omega) (by omega)
    refine ⟨r, ?_, by simpa using hl, fun j => ?_⟩
    · simp [zipLoop, arrGet_wd hi, arrGet_wd (show i < rhs.length by omega), hi, e]
    · rw [hb j, wd_set hi]
      by_cases h3 : j = i
      · subst h3; rw [if_neg (by omega), if_pos rfl, if_pos (by omega)]
      · rw [if_neg h3]
        by_cases h4 : i + 1 ≤ j ∧ j < i + 1 + k
        · rw [if_pos h4, if_pos (by omega)]
        · rw [if_neg h4, if_neg (by omega)]

theorem zip_bits {w : Nat} {f : BitVec w → BitVec w → BitVec w} {g : Bool → Bool → Bool}
    (hg : ∀ x y k, (f x y).getLsbD k = g (x.getLsbD k) (y.getLsbD k)) (hg0 : g false false = false)
    {N : Nat} {s t : Words w} (hs : s.length = storageSize w N) (ht : t.length = storageSize w N) :
    ∃ r, zipLoop f t (storageSize w N) 0 s = .ok r ∧ r.length = storageSize w N ∧
      ∀ i, bits r i = g (bits s i) (bits t i) := by
  obtain ⟨r, e, hl, hb⟩ := zipLoop_spec (f := f) (rhs := t) (storageSize w N) 0 s (by omega) (by omega)
  refine ⟨r, e, by omega, fun i => ?_⟩
  unfold bits
  rw [hb]
  have hz := Nat.zero_le (i / w)
  split
  · exact hg _ _ _
  · rw [wd_ge (s := s) (by omega), wd_ge (s := t) (by omega)]; simp [hg0]

theorem or_spec {w N : Nat} {s t : Words w} (hs : s.length = storageSize w N) (ht : t.length = storageSize w N) :
    ∃ r, or N s t = .ok r ∧ r.length = storageSize w N ∧ ∀ i, bits r i = (bits s i || bits t i) :=
  zip_bits (g := (· || ·)) (by simp) rfl hs ht

theorem and_spec {w N : Nat} {s t : Words w} (hs : s.length = storageSize w N) (ht : t.length = storageSize w N) :
    ∃ r, and N s t = .ok r ∧ r.length = storageSize w N ∧ ∀ i, bits r i = (bits s i && bits t i) :=
  zip_bits (g := (· && ·)) (by simp) rfl hs ht

theorem xor_spec {w N : Nat} {s t : Words w} (hs : s.length = storageSize w N) (ht : t.length = storageSize w N) :
    ∃ r, xor N s t = .ok r ∧ r.length = storageSize w N ∧ ∀ i, bits r i = (bits s i ^^ bits t i) :=
  zip_bits (g := Bool.xor) (by simp) rfl hs ht

theorem sub_spec {w N : Nat} (hw : 0 < w) {s t : Words w} (hs : s.length = storageSize w N)
    (ht : t.length = storageSize w N) :
    ∃ r, sub N s t = .ok r ∧ r.length = storageSize w N ∧ ∀ i, bits r i = (bits s i && !(bits t i)) := by
  obtain ⟨r, e, hl, hb⟩ := and_spec (N := N) hs (t := flipAll t) (by simpa [flipAll] using ht)
  refine ⟨r, e, hl, fun i => ?_⟩
  rw [hb]
  rcases Nat.lt_or_ge i (t.length * w) with h | h
  · rw [flipAll_bits hw h]
  · rw [bits_ge (s := s) hw (by rw [hs, ← ht]; exact h)]; simp

theorem notLoop_spec {w : Nat} {s : Words w} :
    ∀ (k i : Nat) (t : Words w), i + k ≤ s.length → i + k ≤ t.length →
    ∃ r, notLoop s k i t = .ok r ∧ r.length = t.length ∧
      ∀ j, wd r j = if i ≤ j ∧ j < i + k then ~~~(wd s j) else wd t j := by
  intro k
  induction k with
  | zero => intro i s _ _; exact ⟨s, rfl, rfl, fun j => by rw [if_neg (by omega)]⟩
  | succ k ih =>
    intro i t h1 h2
    have hi : i < t.length := by omega
    obtain ⟨r, e, hl, hb⟩ := ih (i + 1) (t.set i (~~~(wd s i))) (by omega) (by simp; omega)
    refine ⟨r, ?_, by simpa using hl, fun j => ?_⟩
    · simp [notLoop, arrGet_wd (show i < s.length by omega), hi, e]
    · rw [hb j, wd_set hi]
      by_cases h3 : j = i
      · subst h3; simp
      · rw [if_neg h3]
        by_cases h4 : i + 1 ≤ j ∧ j < i + 1 + k
        · rw [if_pos h4, if_pos (by omega)]
        · rw [if_neg h4, if_neg (by omega)]

theorem not_spec {w N : Nat} (hw : 0 < w) {s : Words w} (hs : s.length = storageSize w N) :
    ∃ r, not N s = .ok r ∧ r.length = storageSize w N ∧
      ∀ i, i < storageSize w N * w → bits r i = !(bits s i) := by
  obtain ⟨r, e, hl, hb⟩ := notLoop_spec (s := s) (storageSize w N) 0
    (List.replicate (storageSize w N) 0#w) (by omega) (by simp)
  refine ⟨r, e, by simpa using hl, fun i hi => ?_⟩
  have := index_lt hi
  have hz := Nat.zero_le (i / w)
  unfold bits
  rw [hb, if_pos (by omega)]
  simp [Nat.mod_lt i hw]

/-! ## Shifts -/

/-- One output word of a left shift by `p` bits. -/
def shlWord {w : Nat} (p : Nat) (hi lo : BitVec w) : BitVec w :=
  if p = 0 then hi else (hi <<< p) ||| (lo >>> (w - p))

theorem shlLoop_spec {w : Nat} {p : Nat} (hp : p < w) : ∀ (i : Nat) (s : Words w) (d : Nat),
    i ≤ d → d < s.length →
    ∃ r, shlLoop p i s d = .ok (r, d - i) ∧ r.length = s.length ∧
      ∀ j, wd r j = if d - i < j ∧ j ≤ d then shlWord p (wd s (j - (d - i))) (wd s (j - (d - i) - 1))
        else wd s j := by
  intro i
  induction i with
  | zero => intro s d h1 h2; exact ⟨s, rfl, rfl, fun j => by rw [if_neg (by omega)]⟩
  | succ i ih =>
    intro s d h1 h2
    have hd : szDec d = d - 1 := szDec_of_pos (by omega)
    have step : ∃ s1 : Words w, shlLoop p (i + 1) s d = shlLoop p i s1 (d - 1) ∧ s1.length = s.length ∧
        ∀ j, wd s1 j = if j = d then shlWord p (wd s (i + 1)) (wd s i) else wd s j := by
      by_cases hp0 : p = 0
      · refine ⟨s.set d (wd s (i + 1)), ?_, by simp, fun j => ?_⟩
        · simp [shlLoop, hp0, arrGet_wd (show i + 1 < s.length by omega), h2, hd]
        · rw [wd_set h2]; simp [shlWord, hp0]
      · refine ⟨(s.set d (wd s (i + 1) <<< p)).set d ((wd s (i + 1) <<< p) ||| (wd s i >>> (w - p))), ?_,
          by simp, fun j => ?_⟩
        · have g1 : arrGet (s.set d (wd s (i + 1) <<< p)) i = .ok (wd s i) := by
            rw [arrGet_wd (by simp; omega), wd_set h2, if_neg (by omega)]
          have g2 : arrGet (s.set d (wd s (i + 1) <<< p)) d = .ok (wd s (i + 1) <<< p) := by
            rw [arrGet_wd (by simpa using h2), wd_set h2, if_pos rfl]
          simp only [shlLoop, hp0, ↓reduceIte, arrGet_wd (show i + 1 < s.length by omega),
            cshl_ok hp, arrSet_of_lt h2, Outcome.ok_bind, g1, g2,
            cshr_ok (show w - p < w by omega), hd]
          rw [arrSet_of_lt (by simpa using h2)]
          rfl
        · rw [wd_set (by simpa using h2), wd_set h2]
          simp only [shlWord, hp0, ↓reduceIte]
          split <;> rfl
    obtain ⟨s1, e1, hl1, hb1⟩ := step
    obtain ⟨r, e, hl, hb⟩ := ih s1 (d - 1) (by omega) (by omega)
    refine ⟨r, by rw [e1, e]; congr 2; omega, by omega, fun j => ?_⟩
    rw [hb j, show d - 1 - i = d - (i + 1) by omega]
    by_cases h3 : d - (i + 1) < j ∧ j ≤ d - 1
    · rw [if_pos h3, if_pos (by omega), hb1, hb1, if_neg (by omega), if_neg (by omega)]
    · rw [if_neg h3, hb1]
      by_cases h4 : j = d
      · subst h4
        rw [if_pos rfl, if_pos (by omega), show j - (j - (i + 1)) = i + 1 by omega,
          Nat.add_sub_cancel]
      · rw [if_neg h4, if_neg (by omega)]

theorem zeroDown_spec {w : Nat} : ∀ (d : Nat) (s : Words w), d ≤ s.length →
    ∃ r, zeroDown d s = .ok r ∧ r.length = s.length ∧ ∀ j, wd r j = if j < d then 0#w else wd s j := by
  intro d
  induction d with
  | zero => intro s _; exact ⟨s, rfl, rfl, fun j => by simp⟩
  | succ d ih =>
    intro s h
    obtain ⟨r, e, hl, hb⟩ := ih (s.set d 0#w) (by simp; omega)
    refine ⟨r, by simp [zeroDown, show d < s.length by omega, e], by simpa using hl, fun j => ?_⟩
    rw [hb, wd_set (by omega)]
    grind

theorem shl_words {w : Nat} (hw : 0 < w) {N n : Nat} (hN : 0 < N) {s : Words w}
    (hs : s.length = storageSize w N) (hn : n / w < storageSize w N) :
    ∃ r, shl N s n = .ok r ∧ r.length = storageSize w N ∧
      ∀ j, j < storageSize w N → wd r j = if j < n / w then 0#w
        else if j = n / w then wd s 0 <<< (n % w)
        else shlWord (n % w) (wd s (j - n / w)) (wd s (j - n / w - 1)) := by
  have hp := Nat.mod_lt n hw
  have hpos := storageSize_pos hw hN
  have hz := Nat.zero_le (n / w)
  have hsub : szSub (storageSize w N - 1) (n / w) = storageSize w N - 1 - n / w := by
    unfold szSub; rw [if_pos (by omega)]
  obtain ⟨r1, e1, hl1, hb1⟩ := shlLoop_spec hp (storageSize w N - 1 - n / w) s (storageSize w N - 1)
    (by omega) (by omega)
  have hdst : storageSize w N - 1 - (storageSize w N - 1 - n / w) = n / w := by omega
  rw [hdst] at e1 hb1
  have h0 : wd r1 0 = wd s 0 := by rw [hb1, if_neg (by omega)]
  obtain ⟨r, e, hl, hb⟩ := zeroDown_spec (n / w) (r1.set (n / w) (wd s 0 <<< (n % w))) (by simp; omega)
  refine ⟨r, ?_, by simp at hl; omega, fun j hj => ?_⟩
  · simp only [shl, show N ≠ 0 by omega, ↓reduceIte, hsub, e1, Outcome.ok_bind,
      arrGet_wd (show 0 < r1.length by omega), h0, cshl_ok hp]
    rw [arrSet_of_lt (by omega)]
    simpa using e
  · rw [hb, wd_set (by omega)]
    by_cases h1 : j < n / w
    · simp [h1]
    · rw [if_neg h1, if_neg h1]
      by_cases h2 : j = n / w
      · simp [h2]
      · rw [if_neg h2, if_neg h2, hb1, if_pos (by omega)]

theorem getLsbD_shlWord {w p k : Nat} (hp : p < w) (hk : k < w) (hi lo : BitVec w) :
    (shlWord p hi lo).getLsbD k = if p ≤ k then hi.getLsbD (k - p) else lo.getLsbD (k + w - p) := by
  unfold shlWord
  by_cases h : p = 0
  · subst h; simp
  · rw [if_neg h, BitVec.getLsbD_or, BitVec.getLsbD_shiftLeft, BitVec.getLsbD_ushiftRight]
    by_cases h1 : p ≤ k
    · rw [if_pos h1, BitVec.getLsbD_of_ge lo _ (by omega)]
      simp [hk, show ¬ k < p by omega]
    · rw [if_neg h1]
      simp [show k < p by omega, show w - p + k = k + w - p by omega]

/-- The left shift moves the bits of the whole storage up. -/
theorem shl_spec {w : Nat} (hw : 0 < w) {N n : Nat} (hN : 0 < N) {s : Words w}
    (hs : s.length = storageSize w N) (hn : n < storageSize w N * w) :
    ∃ r, shl N s n = .ok r ∧ r.length = storageSize w N ∧
      ∀ i, i < storageSize w N * w → bits r i = (decide (n ≤ i) && bits s (i - n)) := by
  obtain ⟨r, e, hl, hb⟩ := shl_words hw hN hs (index_lt hn)
  refine ⟨r, e, hl, fun i hi => ?_⟩
  obtain ⟨j, k, rfl, hk, _, _⟩ := split_pos hw i
  obtain ⟨q, p, rfl, hp, eq, ep⟩ := split_pos hw n
  have hj : j < storageSize w N := (pos_lt_iff hk).mp hi
  rw [bits_mk hk, hb j hj, eq, ep]
  rcases Nat.lt_trichotomy j q with h | h | h
  · have : (j + 1) * w ≤ q * w := Nat.mul_le_mul_right w h
    rw [Nat.add_mul] at this
    rw [if_pos h]; simp; omega
  · subst h
    rw [if_neg (by omega), if_pos rfl, BitVec.getLsbD_shiftLeft]
    by_cases h1 : p ≤ k
    · rw [show j * w + k - (j * w + p) = 0 * w + (k - p) by omega, bits_mk (by omega)]
      simp [hk, show ¬ k < p by omega, h1]
    · simp [show k < p by omega, h1]
  · have hq : (q + 1) * w ≤ j * w := Nat.mul_le_mul_right w h
    rw [Nat.add_mul] at hq
    rw [if_neg (by omega), if_neg (by omega), getLsbD_shlWord hp hk]
    have hd : decide (q * w + p ≤ j * w + k) = true := by simp; omega
    rw [hd, Bool.true_and]
    by_cases h1 : p ≤ k
    · rw [if_pos h1, show j * w + k - (q * w + p) = (j - q) * w + (k - p) by
        rw [Nat.sub_mul]; omega, bits_mk (by omega)]
    · have h2 : (j - q - 1) * w = j * w - q * w - w := by rw [Nat.sub_mul, Nat.sub_mul, Nat.one_mul]
      rw [if_neg h1, show j * w + k - (q * w + p) = (j - q - 1) * w + (k + w - p) by omega,
        bits_mk (by omega)]

/-- One output word of a right shift by `p` bits. -/
def shrWord {w : Nat} (p : Nat) (lo hi : BitVec w) : BitVec w :=
  if p = 0 then lo else (lo >>> p) ||| (hi <<< (w - p))

theorem shrLoop_spec {w : Nat} {p : Nat} (hp : p < w) : ∀ (k i : Nat) (s : Words w) (d : Nat),
    d ≤ i → i + k < s.length →
    ∃ r, shrLoop p k i s d = .ok (r, d + k) ∧ r.length = s.length ∧
      ∀ j, wd r j = if d ≤ j ∧ j < d + k then shrWord p (wd s (j + (i - d))) (wd s (j + (i - d) + 1))
        else wd s j := by
  intro k
  induction k with
  | zero => intro i s d h1 h2; exact ⟨s, rfl, rfl, fun j => by rw [if_neg (by omega)]⟩
  | succ k ih =>
    intro i s d h1 h2
    have hd : d < s.length := by omega
    have step : ∃ s1 : Words w, shrLoop p (k + 1) i s d = shrLoop p k (i + 1) s1 (d + 1) ∧
        s1.length = s.length ∧
        ∀ j, wd s1 j = if j = d then shrWord p (wd s i) (wd s (i + 1)) else wd s j := by
      by_cases hp0 : p = 0
      · refine ⟨s.set d (wd s i), ?_, by simp, fun j => ?_⟩
        · simp [shrLoop, hp0, arrGet_wd (show i < s.length by omega), hd]
        · rw [wd_set hd]; simp [shrWord, hp0]
      · refine ⟨(s.set d (wd s i >>> p)).set d ((wd s i >>> p) ||| (wd s (i + 1) <<< (w - p))), ?_,
          by simp, fun j => ?_⟩
        · have g1 : arrGet (s.set d (wd s i >>> p)) (i + 1) = .ok (wd s (i + 1)) := by
            rw [arrGet_wd (by simp; omega), wd_set hd, if_neg (by omega)]
          have g2 : arrGet (s.set d (wd s i >>> p)) d = .ok (wd s i >>> p) := by
            rw [arrGet_wd (by simpa using hd), wd_set hd, if_pos rfl]
          simp only [shrLoop, hp0, ↓reduceIte, arrGet_wd (show i < s.length by omega),
            cshr_ok hp, arrSet_of_lt hd, Outcome.ok_bind, g1, g2,
            cshl_ok (show w - p < w by omega)]
          rw [arrSet_of_lt (by simpa using hd)]
          rfl
        · rw [wd_set (by simpa using hd), wd_set hd]
          simp only [shrWord, hp0, ↓reduceIte]
          split <;> rfl
    obtain ⟨s1, e1, hl1, hb1⟩ := step
    obtain ⟨r, e, hl, hb⟩ := ih (i + 1) s1 (d + 1) (by omega) (by omega)
    refine ⟨r, by rw [e1, e]; congr 2; omega, by omega, fun j => ?_⟩
    rw [hb j, show i + 1 - (d + 1) = i - d by omega]
    by_cases h3 : d + 1 ≤ j ∧ j < d + 1 + k
    · rw [if_pos h3, if_pos (by omega), hb1, hb1, if_neg (by omega), if_neg (by omega)]
    · rw [if_neg h3, hb1]
      by_cases h4 : j = d
      · subst h4
        rw [if_pos rfl, if_pos (by omega), show j + (i - j) = i by omega]
      · rw [if_neg h4, if_neg (by omega)]

theorem zeroUp_spec {w : Nat} : ∀ (k d : Nat) (s : Words w), d + k ≤ s.length →
    ∃ r, zeroUp k d s = .ok r ∧ r.length = s.length ∧
      ∀ j, wd r j = if d ≤ j ∧ j < d + k then 0#w else wd s j := by
  intro k
  induction k with
  | zero => intro d s _; exact ⟨s, rfl, rfl, fun j => by rw [if_neg (by omega)]⟩
  | succ k ih =>
    intro d s h
    obtain ⟨r, e, hl, hb⟩ := ih (d + 1) (s.set d 0#w) (by simp; omega)
    refine ⟨r, by simp [zeroUp, show d < s.length by omega, e], by simpa using hl, fun j => ?_⟩
    rw [hb, wd_set (by omega)]
    grind

theorem back_wd {w : Nat} {s : Words w} (h : 0 < s.length) : back s = .ok (wd s (s.length - 1)) := by
  unfold back wd
  rw [List.getLast?_eq_getElem?]
  simp [show s.length - 1 < s.length by omega]

theorem shr_words {w : Nat} (hw : 0 < w) {N n : Nat} (hN : 0 < N) {s : Words w}
    (hs : s.length = storageSize w N) (hn : n / w < storageSize w N) :
    ∃ r, shr N s n = .ok r ∧ r.length = storageSize w N ∧
      ∀ j, wd r j = if j + n / w + 1 < storageSize w N then
          shrWord (n % w) (wd s (j + n / w)) (wd s (j + n / w + 1))
        else if j + n / w + 1 = storageSize w N then wd s (storageSize w N - 1) >>> (n % w)
        else 0#w := by
  have hp := Nat.mod_lt n hw
  have hpos := storageSize_pos hw hN
  have hz := Nat.zero_le (n / w)
  obtain ⟨r1, e1, hl1, hb1⟩ := shrLoop_spec hp (storageSize w N - 1 - n / w) (n / w) s 0
    (by omega) (by omega)
  rw [Nat.zero_add] at e1
  have hback : back r1 = .ok (wd s (storageSize w N - 1)) := by
    rw [back_wd (by omega), hl1, hs, hb1, if_neg (by omega)]
  obtain ⟨r, e, hl, hb⟩ := zeroUp_spec (storageSize w N - (storageSize w N - 1 - n / w + 1))
    (storageSize w N - 1 - n / w + 1)
    (r1.set (storageSize w N - 1 - n / w) (wd s (storageSize w N - 1) >>> (n % w))) (by simp; omega)
  refine ⟨r, ?_, by simp at hl; omega, fun j => ?_⟩
  · simp only [shr, show N ≠ 0 by omega, ↓reduceIte, e1, Outcome.ok_bind, hback, cshr_ok hp]
    rw [arrSet_of_lt (by omega)]
    simpa using e
  · rw [hb, wd_set (by omega)]
    by_cases h1 : j + n / w + 1 < storageSize w N
    · rw [if_pos h1, if_neg (by omega), if_neg (by omega), hb1, if_pos (by omega), Nat.sub_zero]
    · rw [if_neg h1]
      by_cases h2 : j + n / w + 1 = storageSize w N
      · rw [if_pos h2, if_neg (by omega), if_pos (by omega)]
      · rw [if_neg h2]
        by_cases h3 : j < storageSize w N
        · rw [if_pos (by omega)]
        · rw [if_neg (by omega), if_neg (by omega), wd_ge (by omega)]

theorem getLsbD_shrWord {w p k : Nat} (hp : p < w) (hk : k < w) (lo hi : BitVec w) :
    (shrWord p lo hi).getLsbD k = if k + p < w then lo.getLsbD (k + p) else hi.getLsbD (k + p - w) := by
  unfold shrWord
  by_cases h : p = 0
  · subst h; simp [hk]
  · rw [if_neg h, BitVec.getLsbD_or, BitVec.getLsbD_shiftLeft, BitVec.getLsbD_ushiftRight]
    by_cases h1 : k + p < w
    · rw [if_pos h1]
      simp [show k < w - p by omega, Nat.add_comm p k]
    · rw [if_neg h1, BitVec.getLsbD_of_ge lo _ (by omega)]
      simp [show ¬ k < w - p by omega, hk, show k - (w - p) = k + p - w by omega]

/-- The right shift moves the bits of the whole storage down. -/
theorem shr_spec {w : Nat} (hw : 0 < w) {N n : Nat} (hN : 0 < N) {s : Words w}
    (hs : s.length = storageSize w N) (hn : n < storageSize w N * w) :
    ∃ r, shr N s n = .ok r ∧ r.length = storageSize w N ∧
      ∀ i, bits r i = bits s (i + n) := by
  obtain ⟨r, e, hl, hb⟩ := shr_words hw hN hs (index_lt hn)
  refine ⟨r, e, hl, fun i => ?_⟩
  obtain ⟨j, k, rfl, hk, _, _⟩ := split_pos hw i
  obtain ⟨q, p, rfl, hp, eq, ep⟩ := split_pos hw n
  rw [bits_mk hk, hb j, eq, ep]
  have hsum : j * w + k + (q * w + p) = (j + q) * w + (k + p) := by rw [Nat.add_mul]; omega
  have hsum' : ¬ k + p < w → j * w + k + (q * w + p) = (j + q + 1) * w + (k + p - w) := by
    intro h
    rw [hsum, Nat.add_mul _ 1]; omega
  by_cases h : j + q + 1 < storageSize w N
  · rw [if_pos h, getLsbD_shrWord hp hk]
    by_cases h1 : k + p < w
    · rw [if_pos h1, hsum, bits_mk h1]
    · rw [if_neg h1, hsum' h1, bits_mk (by omega)]
  · rw [if_neg h]
    by_cases h2 : j + q + 1 = storageSize w N
    · rw [if_pos h2, BitVec.getLsbD_ushiftRight]
      by_cases h1 : k + p < w
      · rw [hsum, bits_mk h1, show storageSize w N - 1 = j + q by omega, Nat.add_comm p k]
      · rw [hsum' h1, bits_mk (by omega), BitVec.getLsbD_of_ge _ _ (by omega), wd_ge (by omega)]; simp
    · rw [if_neg h2]
      symm
      by_cases h1 : k + p < w
      · rw [hsum, bits_mk h1, wd_ge (by omega)]; simp
      · rw [hsum' h1, bits_mk (by omega), wd_ge (by omega)]; simp

end Verif.Bitset
