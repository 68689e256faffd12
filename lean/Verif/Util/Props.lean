import Verif.Util.Model
import Verif.Tuple.PropsChunk
import Mathlib.Tactic.Ring
import Mathlib.Tactic.NormNum

/-! # Type maps, size conversion, alignment, batches, bound functions: the property theorems (C71, C73–C76) -/

namespace Verif.Util

open Verif.Tuple

variable {α β γ κ ν σ : Type}

/-! ## C71 -/

section Map
variable [DecidableEq κ] [DecidableEq ν]

theorem filter_once {p : α → Bool} {pre post : List α} {x : α} (hx : p x = true) (h1 : ∀ y ∈ pre, p y = false) (h2 : ∀ y ∈ post, p y = false) :
    (pre ++ x :: post).filter p = [x] := by
  rw [List.filter_append, List.filter_cons, if_pos hx, List.filter_eq_nil_iff.mpr (by simpa using h1),
    List.filter_eq_nil_iff.mpr (by simpa using h2)]
  rfl

/-- **C71.** In every type map that can be formed, a key bound once gives its value and an unbound key the default. -/
theorem C71_lookup (m : List (κ × ν)) (hm : m.Nodup) (k : κ) (d : ν) :
    (∀ pre v post, m = pre ++ (k, v) :: post → k ∉ pre.map Prod.fst → k ∉ post.map Prod.fst → lookup m k d = .ok v) ∧
    (k ∉ m.map Prod.fst → lookup m k d = .ok d) := by
  constructor
  · intro pre v post he h1 h2
    have hf : (m.filter fun p => decide (p.1 = k)) = [(k, v)] := by
      rw [he]
      refine filter_once (by simp) ?_ ?_
      · intro y hy; simp only [decide_eq_false_iff_not]; exact fun e => h1 (List.mem_map.mpr ⟨y, hy, e⟩)
      · intro y hy; simp only [decide_eq_false_iff_not]; exact fun e => h2 (List.mem_map.mpr ⟨y, hy, e⟩)
    unfold lookup mapOk
    rw [if_pos hm, hf]; rfl
  · intro h
    have hf : (m.filter fun p => decide (p.1 = k)) = [] := by
      rw [List.filter_eq_nil_iff]
      intro y hy; simp only [decide_eq_true_eq]; exact fun e => h (List.mem_map.mpr ⟨y, hy, e⟩)
    unfold lookup mapOk
    rw [if_pos hm, hf]; rfl

/-- **C71, reverse.** Likewise by value. -/
theorem C71_reverse_lookup (m : List (κ × ν)) (hm : m.Nodup) (v : ν) (d : κ) :
    (∀ pre k post, m = pre ++ (k, v) :: post → v ∉ pre.map Prod.snd → v ∉ post.map Prod.snd → reverseLookup m v d = .ok k) ∧
    (v ∉ m.map Prod.snd → reverseLookup m v d = .ok d) := by
  constructor
  · intro pre k post he h1 h2
    have hf : (m.filter fun p => decide (p.2 = v)) = [(k, v)] := by
      rw [he]
      refine filter_once (by simp) ?_ ?_
      · intro y hy; simp only [decide_eq_false_iff_not]; exact fun e => h1 (List.mem_map.mpr ⟨y, hy, e⟩)
      · intro y hy; simp only [decide_eq_false_iff_not]; exact fun e => h2 (List.mem_map.mpr ⟨y, hy, e⟩)
    unfold reverseLookup mapOk
    rw [if_pos hm, hf]; rfl
  · intro h
    have hf : (m.filter fun p => decide (p.2 = v)) = [] := by
      rw [List.filter_eq_nil_iff]
      intro y hy; simp only [decide_eq_true_eq]; exact fun e => h (List.mem_map.mpr ⟨y, hy, e⟩)
    unfold reverseLookup mapOk
    rw [if_pos hm, hf]; rfl

/-- **C71, inverse.** If keys and values are each unique then the lookups invert each other on every binding. -/
theorem C71_inverse (m : List (κ × ν)) (hk : (m.map Prod.fst).Nodup) (hv : (m.map Prod.snd).Nodup) (k : κ) (v : ν) (dv : ν) (dk : κ)
    (h : (k, v) ∈ m) : lookup m k dv = .ok v ∧ reverseLookup m v dk = .ok k := by
  have hm : m.Nodup := (List.pairwise_map.mp hk).imp fun h e => h (congrArg Prod.fst e)
  obtain ⟨pre, post, he⟩ := List.append_of_mem h
  subst he
  rw [List.map_append, List.map_cons, List.nodup_append] at hk hv
  have notin : ∀ {l1 l2 : List κ} {x : κ}, (∀ a ∈ l1, ∀ b ∈ x :: l2, a ≠ b) → x ∉ l1 := fun h hx => h _ hx _ (by simp) rfl
  refine ⟨(C71_lookup _ hm k dv).1 pre v post rfl (fun hx => hk.2.2 _ hx _ (by simp) rfl) (List.nodup_cons.mp hk.2.1).1,
    (C71_reverse_lookup _ hm v dk).1 pre k post rfl (fun hx => hv.2.2 _ hx _ (by simp) rfl) (List.nodup_cons.mp hv.2.1).1⟩

/-- **C71, value lookup.** The `_v` forms agree, with the default also for a key bound to `void`. -/
theorem C71_lookup_v (m : List (κ × Option ν)) (hm : m.Nodup) (k : κ) (d : ν) :
    (∀ pre v post, m = pre ++ (k, some v) :: post → k ∉ pre.map Prod.fst → k ∉ post.map Prod.fst → lookupV m k d = .ok v) ∧
    (∀ pre post, m = pre ++ (k, none) :: post → k ∉ pre.map Prod.fst → k ∉ post.map Prod.fst → lookupV m k d = .ok d) ∧
    (k ∉ m.map Prod.fst → lookupV m k d = .ok d) := by
  have h := C71_lookup m hm k none
  unfold lookupV
  exact ⟨fun pre v post e h1 h2 => by rw [h.1 pre (some v) post e h1 h2]; rfl,
    fun pre post e h1 h2 => by rw [h.1 pre none post e h1 h2]; rfl, fun hn => by rw [h.2 hn]; rfl⟩

/-- Likewise by value. -/
theorem C71_reverse_lookup_v (m : List (Option κ × ν)) (hm : m.Nodup) (v : ν) (d : κ) :
    (∀ pre k post, m = pre ++ (some k, v) :: post → v ∉ pre.map Prod.snd → v ∉ post.map Prod.snd → reverseLookupV m v d = .ok k) ∧
    (∀ pre post, m = pre ++ (none, v) :: post → v ∉ pre.map Prod.snd → v ∉ post.map Prod.snd → reverseLookupV m v d = .ok d) ∧
    (v ∉ m.map Prod.snd → reverseLookupV m v d = .ok d) := by
  have h := C71_reverse_lookup m hm v none
  unfold reverseLookupV
  exact ⟨fun pre k post e h1 h2 => by rw [h.1 pre (some k) post e h1 h2]; rfl,
    fun pre post e h1 h2 => by rw [h.1 pre none post e h1 h2]; rfl, fun hn => by rw [h.2 hn]; rfl⟩

/-- A key bound to two different values is looked up as if it were not bound; one bound twice to the same value does not
compile. -/
theorem C71_ambiguous (m : List (κ × ν)) (hm : m.Nodup) (k : κ) (v w d : ν) (hv : (k, v) ∈ m) (hw : (k, w) ∈ m) (hvw : v ≠ w) :
    lookup m k d = .ok d := by
  unfold lookup mapOk
  rw [if_pos hm]
  have h1 : (k, v) ∈ m.filter fun p => decide (p.1 = k) := List.mem_filter.mpr ⟨hv, by simp⟩
  have h2 : (k, w) ∈ m.filter fun p => decide (p.1 = k) := List.mem_filter.mpr ⟨hw, by simp⟩
  match he : m.filter fun p => decide (p.1 = k) with
  | [] => simp only [he]; rfl
  | [p] =>
    rw [he, List.mem_singleton] at h1 h2
    rw [← h1] at h2
    injection h2 with _ h2
    exact absurd h2.symm hvw
  | _ :: _ :: _ => simp only [he]; rfl

theorem C71_duplicate_pair (m : List (κ × ν)) (hm : ¬ m.Nodup) (k : κ) (d : ν) : lookup m k d = .ub := by
  unfold lookup mapOk; rw [if_neg hm]; rfl

example : [(1, 'a'), (2, 'b'), (3, 'a')].Nodup ∧ 2 ∉ [(1, 'a')].map Prod.fst := by decide
example : lookup [(1, 'a'), (2, 'b'), (3, 'a')] 2 'z' = .ok 'b' ∧ reverseLookup [(1, 'a'), (2, 'b'), (3, 'a')] 'b' 0 = .ok 2 := by decide

end Map

/-! ## C73 -/

/-- `n` objects of size `sU` are the fewest that hold `sz` objects of size `sT`. -/
def Least (sT sU sz n : Nat) : Prop := sz * sT ≤ n * sU ∧ ∀ m, sz * sT ≤ m * sU → n ≤ m

/-- Whether nothing wraps: the total size, rounded up to a whole destination object if that is the larger, fits. -/
def Fits (w sT sU sz : Nat) : Prop := sz * sT + (if sT < sU then sU - 1 else 0) < 2 ^ w

theorem ceil_least (x sU : Nat) (hU : 0 < sU) : x ≤ (x + sU - 1) / sU * sU ∧ ∀ m, x ≤ m * sU → (x + sU - 1) / sU ≤ m := by
  constructor
  · have h1 := Nat.div_add_mod (x + sU - 1) sU
    have h2 := Nat.mod_lt (x + sU - 1) hU
    rw [Nat.mul_comm] at h1
    omega
  · intro m hm
    have : (x + sU - 1) / sU < m + 1 := by
      rw [Nat.div_lt_iff_lt_mul hU, Nat.succ_mul]; omega
    omega

/-- What the conversion computes when nothing wraps. -/
theorem sizeConversion_eq (w sT sU sz : Nat) (hU : 0 < sU) (hUw : sU < 2 ^ w) (hf : Fits w sT sU sz) :
    sizeConversion w sT sU sz = if sT = sU then sz else if sT > sU then sz * sT / sU + (if sT % sU > 0 then 1 else 0)
      else (sz * sT + sU - 1) / sU := by
  unfold sizeConversion
  unfold Fits at hf
  split
  · rfl
  · split
    · rename_i h1 h2
      rw [if_neg (by omega)] at hf
      rw [Nat.mod_eq_of_lt (show sz * sT < 2 ^ w by omega)]
      apply Nat.mod_eq_of_lt
      by_cases hm : sT % sU > 0
      · have hU2 : 2 ≤ sU := by
          rcases (by omega : sU = 1 ∨ 2 ≤ sU) with h | h
          · rw [h, Nat.mod_one] at hm; omega
          · exact h
        have : sz * sT / sU ≤ sz * sT / 2 := Nat.div_le_div_left hU2 (by omega)
        rw [if_pos hm]
        omega
      · rw [if_neg hm]
        have := Nat.div_le_self (sz * sT) sU
        omega
    · rename_i h1 h2
      rw [if_pos (by omega)] at hf
      rw [Nat.mod_eq_of_lt (show sz * sT < 2 ^ w by omega)]
      congr 1
      by_cases he : sz * sT + sU = 2 ^ w
      · rw [he, Nat.mod_self, Nat.zero_add, Nat.mod_eq_of_lt (by omega)]
      · rw [Nat.mod_eq_of_lt (show sz * sT + sU < 2 ^ w by omega),
          show sz * sT + sU + (2 ^ w - 1) = (sz * sT + sU - 1) + 2 ^ w by omega, Nat.add_mod_right, Nat.mod_eq_of_lt (by omega)]

/-- **C73, partial.** The conversion gives the fewest objects that suffice, provided nothing wraps and either the source type
is no larger, or the destination size divides it, or the total is not a whole number of destination objects.  Missing:
the other cases, where it is wrong (`C73_exact_multiple_violated`, `C73_overflow_violated`). -/
theorem C73_least_partial (w sT sU sz : Nat) (hT : 0 < sT) (hU : 0 < sU) (hUw : sU < 2 ^ w) (hf : Fits w sT sU sz)
    (h : sT ≤ sU ∨ sU ∣ sT ∨ ¬ sU ∣ sz * sT) : Least sT sU sz (sizeConversion w sT sU sz) := by
  rw [sizeConversion_eq w sT sU sz hU hUw hf]
  unfold Least
  split
  · rename_i he
    subst he
    exact ⟨Nat.le_refl _, fun m hm => Nat.le_of_mul_le_mul_right hm hT⟩
  · split
    · rename_i h1 h2
      by_cases hd : sU ∣ sT
      · have hm : sT % sU = 0 := Nat.mod_eq_zero_of_dvd hd
        rw [if_neg (by omega), Nat.add_zero]
        have hdd : sU ∣ sz * sT := Dvd.dvd.mul_left hd sz
        rw [Nat.div_mul_cancel hdd]
        refine ⟨Nat.le_refl _, fun m hm => ?_⟩
        calc sz * sT / sU ≤ m * sU / sU := Nat.div_le_div_right hm
          _ = m := Nat.mul_div_cancel m hU
      · have hnd : ¬ sU ∣ sz * sT := by omega
        have hm : sT % sU > 0 := Nat.pos_of_ne_zero fun e => hd (Nat.dvd_of_mod_eq_zero e)
        rw [if_pos hm]
        have h3 := Nat.div_add_mod (sz * sT) sU
        have h4 := Nat.mod_lt (sz * sT) hU
        have h5 : 0 < sz * sT % sU := Nat.pos_of_ne_zero fun e => hnd (Nat.dvd_of_mod_eq_zero e)
        refine ⟨?_, fun m hm => ?_⟩
        · rw [Nat.succ_mul, Nat.mul_comm (sz * sT / sU)]; omega
        · have : sz * sT / sU < m := by
            rw [Nat.div_lt_iff_lt_mul hU]
            rcases Nat.lt_or_ge (sz * sT) (m * sU) with hlt | hge
            · exact hlt
            · have : sz * sT = m * sU := by omega
              exact absurd ⟨m, by rw [this, Nat.mul_comm]⟩ hnd
          omega
    · exact ceil_least (sz * sT) sU hU

/-- **C73, enough.** When nothing wraps the result always suffices, with at most one object too many. -/
theorem C73_enough (w sT sU sz : Nat) (hT : 0 < sT) (hU : 0 < sU) (hUw : sU < 2 ^ w) (hf : Fits w sT sU sz) :
    sz * sT ≤ sizeConversion w sT sU sz * sU ∧ ∀ m, sz * sT ≤ m * sU → sizeConversion w sT sU sz ≤ m + 1 := by
  by_cases h : sT ≤ sU ∨ sU ∣ sT ∨ ¬ sU ∣ sz * sT
  · have := C73_least_partial w sT sU sz hT hU hUw hf h
    exact ⟨this.1, fun m hm => Nat.le_succ_of_le (this.2 m hm)⟩
  · have h1 : ¬ sT ≤ sU := fun e => h (.inl e)
    have h2 : ¬ sU ∣ sT := fun e => h (.inr (.inl e))
    have h3 : sU ∣ sz * sT := Classical.byContradiction fun e => h (.inr (.inr e))
    have hm : sT % sU > 0 := Nat.pos_of_ne_zero fun e => h2 (Nat.dvd_of_mod_eq_zero e)
    rw [sizeConversion_eq w sT sU sz hU hUw hf, if_neg (by omega), if_pos (by omega), if_pos hm]
    refine ⟨?_, fun m hm => ?_⟩
    · rw [Nat.succ_mul, Nat.div_mul_cancel h3]; omega
    · have : sz * sT / sU ≤ m * sU / sU := Nat.div_le_div_right hm
      rw [Nat.mul_div_cancel m hU] at this
      omega

/-- From a larger type to one that does not divide it, a total that is a whole number of destination objects — none, for
instance — is given one object too many. -/
theorem C73_exact_multiple_violated (w sT sU sz : Nat) (hU : 0 < sU) (hUw : sU < 2 ^ w) (hf : Fits w sT sU sz) (h1 : sU < sT)
    (h2 : ¬ sU ∣ sT) (h3 : sU ∣ sz * sT) :
    sizeConversion w sT sU sz = sz * sT / sU + 1 ∧ sz * sT / sU * sU = sz * sT ∧ ¬ Least sT sU sz (sizeConversion w sT sU sz) := by
  have hm : sT % sU > 0 := Nat.pos_of_ne_zero fun e => h2 (Nat.dvd_of_mod_eq_zero e)
  have he : sizeConversion w sT sU sz = sz * sT / sU + 1 := by
    rw [sizeConversion_eq w sT sU sz hU hUw hf, if_neg (by omega), if_pos (by omega), if_pos hm]
  refine ⟨he, Nat.div_mul_cancel h3, ?_⟩
  rw [he]
  intro hl
  have := hl.2 (sz * sT / sU) (by rw [Nat.div_mul_cancel h3])
  omega

/-- When the total size wraps the result is too small, whatever the two (different) sizes. -/
theorem C73_overflow_violated (w sT sU sz : Nat) (hU : 0 < sU) (hUw : sU < 2 ^ w) (hne : sT ≠ sU) (hf : ¬ Fits w sT sU sz) :
    sizeConversion w sT sU sz * sU < sz * sT := by
  unfold sizeConversion
  unfold Fits at hf
  have hp : 0 < 2 ^ w := by positivity
  rw [if_neg hne]
  by_cases hlt : sT > sU
  · rw [if_pos hlt]
    rw [if_neg (by omega)] at hf
    have hx : sz * sT % 2 ^ w + 2 ^ w ≤ sz * sT := by
      have h1 := Nat.div_add_mod (sz * sT) (2 ^ w)
      have h2 : 1 ≤ sz * sT / 2 ^ w := (Nat.le_div_iff_mul_le hp).mpr (by omega)
      have h3 : 2 ^ w * 1 ≤ 2 ^ w * (sz * sT / 2 ^ w) := Nat.mul_le_mul_left _ h2
      omega
    have hle : (sz * sT % 2 ^ w / sU + (if sT % sU > 0 then 1 else 0)) % 2 ^ w ≤ sz * sT % 2 ^ w / sU + 1 := by
      refine Nat.le_trans (Nat.mod_le _ _) ?_
      split <;> omega
    have h4 : sz * sT % 2 ^ w / sU * sU ≤ sz * sT % 2 ^ w := Nat.div_mul_le_self _ _
    calc _ ≤ (sz * sT % 2 ^ w / sU + 1) * sU := Nat.mul_le_mul_right _ hle
      _ = sz * sT % 2 ^ w / sU * sU + sU := Nat.succ_mul _ _
      _ < _ := by omega
  · rw [if_neg hlt]
    rw [if_pos (by omega)] at hf
    have hdm : ∀ y, y / sU * sU ≤ y := fun y => Nat.div_mul_le_self y sU
    refine Nat.lt_of_le_of_lt (hdm _) ?_
    by_cases hbig : 2 ^ w ≤ sz * sT
    · exact Nat.lt_of_lt_of_le (Nat.mod_lt _ hp) hbig
    · rw [Nat.mod_eq_of_lt (show sz * sT < 2 ^ w by omega)]
      obtain ⟨r, hr⟩ : ∃ r, sz * sT + sU = 2 ^ w + r ∧ 1 ≤ r := ⟨sz * sT + sU - 2 ^ w, by omega, by omega⟩
      have hrw : r < 2 ^ w := by omega
      rw [hr.1, Nat.add_mod_left, Nat.mod_eq_of_lt hrw, show r + (2 ^ w - 1) = (r - 1) + 2 ^ w by omega, Nat.add_mod_right,
        Nat.mod_eq_of_lt (by omega)]
      omega

example : Fits 64 3 2 0 ∧ 2 < 3 ∧ ¬ 2 ∣ 3 ∧ 2 ∣ 0 * 3 := by refine ⟨?_, by decide, by decide, by decide⟩; unfold Fits; norm_num
example : sizeConversion 64 3 2 0 = 1 := by unfold sizeConversion; norm_num
example : Fits 64 1 4 42 := by unfold Fits; norm_num
example : ¬ Fits 64 8 4 (2 ^ 61) := by unfold Fits; norm_num

/-! ## C74 -/

theorem and_mask (w k : Nat) (hk : k < w) (x : BitVec w) : ((x &&& (BitVec.ofNat w (2 ^ k) - 1#w)) == 0#w) = true ↔ 2 ^ k ∣ x.toNat := by
  have hm : (BitVec.ofNat w (2 ^ k) - 1#w).toNat = 2 ^ k - 1 := by
    have h1 : 2 ^ k < 2 ^ w := Nat.pow_lt_pow_right (by omega) hk
    have h2 : 1 ≤ 2 ^ k := Nat.one_le_two_pow
    have h3 : 1 % 2 ^ w = 1 := Nat.mod_eq_of_lt (by omega)
    rw [BitVec.toNat_sub, BitVec.toNat_ofNat, BitVec.toNat_ofNat, h3, Nat.mod_eq_of_lt h1,
      show 2 ^ w - 1 + 2 ^ k = (2 ^ k - 1) + 2 ^ w by omega, Nat.add_mod_right, Nat.mod_eq_of_lt (by omega)]
  rw [beq_iff_eq, ← BitVec.toNat_inj, BitVec.toNat_and, hm, Nat.and_two_pow_sub_one_eq_mod]
  simp [Nat.dvd_iff_mod_eq_zero]

/-- **C74.** For every alignment (a power of two below `2^w`) and every integer, of whatever type, `is_aligned_with` decides
whether the integer is a multiple of the alignment. -/
theorem C74_integral (w k : Nat) (hk : k < w) (v : Int) : isAlignedInt w (2 ^ k) v = true ↔ ((2 ^ k : Nat) : Int) ∣ v := by
  unfold isAlignedInt
  rw [and_mask w k hk, BitVec.toNat_ofInt, ← Int.natCast_dvd_natCast, Int.toNat_of_nonneg (Int.emod_nonneg _ (by positivity))]
  have hd : ((2 ^ k : Nat) : Int) ∣ ((2 ^ w : Nat) : Int) := Int.natCast_dvd_natCast.mpr (Nat.pow_dvd_pow 2 (by omega))
  constructor
  · intro h
    have := Int.emod_add_mul_ediv v ((2 ^ w : Nat) : Int)
    rw [← this]
    exact Int.dvd_add h (Dvd.dvd.mul_right hd _)
  · intro h
    rw [Int.emod_def]
    exact Int.dvd_sub h (Dvd.dvd.mul_right hd _)

/-- **C74, pointers.** -/
theorem C74_pointer (w k : Nat) (hk : k < w) (p : BitVec w) : isAlignedPtr w (2 ^ k) p = true ↔ 2 ^ k ∣ p.toNat :=
  and_mask w k hk p

example : isAlignedInt 64 4 (-12) = true ∧ isAlignedInt 64 8 (-12) = false := by decide

/-! ## C75 -/

theorem execRows_eq (f : List α → σ → σ) (batch : Nat) (bs : List (List α)) (hb : ∀ b ∈ bs, b.length = batch) (t : List α) (pre : List (List α))
    (ht : t = pre.flatten ++ bs.flatten) (hpre : ∀ b ∈ pre, b.length = batch) (s : σ) :
    execRows f t batch (List.range' pre.length bs.length) s = .ok (bs.foldl (fun s b => f b s) s) := by
  induction bs generalizing pre s with
  | nil => rfl
  | cons b bs ih =>
    rw [List.length_cons, List.range'_succ, execRows, exec]
    have hl : pre.flatten.length = pre.length * batch := by
      clear ht ih
      induction pre with
      | nil => simp
      | cons p ps ihp =>
        rw [List.flatten_cons, List.length_append, ihp fun q hq => hpre q (by simp [hq]), hpre p (by simp), List.length_cons, Nat.succ_mul]
        omega
    have hs := slice_eq (G := Tuple.get t) t pre.flatten b bs.flatten (by rw [ht, List.flatten_cons]) (fun i x h => arrGet_ok.mpr h)
    rw [hl, hb b (by simp)] at hs
    rw [hs, Outcome.ok_bind]
    have := ih (fun c hc => hb c (by simp [hc])) (pre ++ [b]) (by rw [ht]; simp) (by
      intro c hc
      rcases List.mem_append.mp hc with hc | hc
      · exact hpre c hc
      · rw [List.mem_singleton.mp hc]; exact hb b (by simp)) (f b s)
    rw [List.length_append, List.length_singleton] at this
    show execRows f t batch (List.range' (pre.length + 1) bs.length) (f b s) = _
    rw [this]; rfl

/-- **C75.** If the arguments are, in order, batches of the batch size — the given one or, for none, the arity — then the
function is called exactly with these, in order. -/
theorem C75_for_each_n_args (n arity : Nat) (f : List α → σ → σ) (bs : List (List α)) (s : σ)
    (hpos : (if n = 0 then arity else n) ≠ 0) (hb : ∀ b ∈ bs, b.length = if n = 0 then arity else n) :
    forEachNArgs n arity f bs.flatten s = .ok (bs.foldl (fun s b => f b s) s) := by
  unfold forEachNArgs
  generalize (if n = 0 then arity else n) = batch at *
  simp only
  have hl : bs.flatten.length = bs.length * batch := by
    clear s
    induction bs with
    | nil => simp
    | cons p ps ihp =>
      rw [List.flatten_cons, List.length_append, ihp fun q hq => hb q (by simp [hq]), hb p (by simp), List.length_cons, Nat.succ_mul]
      omega
  rw [if_neg hpos, if_pos (by rw [hl]; exact Nat.mul_mod_left _ _), hl, Nat.mul_div_cancel _ (by omega), List.range_eq_range']
  exact execRows_eq f batch bs hb _ [] (by simp) (by simp) s

/-- **C75, batches.** Arguments whose number is a multiple of the batch size have exactly one such division; other numbers,
and a batch size of zero, do not compile. -/
theorem C75_batches (args : List α) (batch : Nat) (hb : batch ≠ 0) :
    (args.length % batch = 0 → ∃ bs : List (List α), args = bs.flatten ∧ (∀ b ∈ bs, b.length = batch) ∧
      ∀ bs' : List (List α), args = bs'.flatten → (∀ b ∈ bs', b.length = batch) → bs' = bs) ∧
    (args.length % batch ≠ 0 → ∀ (f : List α → σ → σ) s, forEachNArgs batch 0 f args s = .ub) ∧
    ∀ (f : List α → σ → σ) s, forEachNArgs 0 0 f args s = .ub := by
  have uniq : ∀ (bs bs' : List (List α)), bs.flatten = bs'.flatten → (∀ b ∈ bs, b.length = batch) → (∀ b ∈ bs', b.length = batch) → bs' = bs := by
    intro bs
    induction bs with
    | nil =>
      intro bs' h _ h2
      cases bs' with
      | nil => rfl
      | cons b _ =>
        have := h2 b (by simp)
        have hl := congrArg List.length h
        rw [List.flatten_cons, List.length_append] at hl
        simp only [List.flatten_nil, List.length_nil] at hl
        omega
    | cons c cs ih =>
      intro bs' h h1 h2
      cases bs' with
      | nil =>
        have := h1 c (by simp)
        have hl := congrArg List.length h
        rw [List.flatten_cons, List.length_append] at hl
        simp only [List.flatten_nil, List.length_nil] at hl
        omega
      | cons b bs' =>
        rw [List.flatten_cons, List.flatten_cons] at h
        obtain ⟨e1, e2⟩ := List.append_inj h (by rw [h1 c (by simp), h2 b (by simp)])
        rw [e1, ih bs' e2 (fun x hx => h1 x (by simp [hx])) (fun x hx => h2 x (by simp [hx]))]
  refine ⟨?_, ?_, ?_⟩
  · intro h
    obtain ⟨q, hq⟩ := Nat.dvd_of_mod_eq_zero h
    have : ∃ bs : List (List α), args = bs.flatten ∧ ∀ b ∈ bs, b.length = batch := by
      clear uniq h
      induction q generalizing args with
      | zero => exact ⟨[], List.eq_nil_of_length_eq_zero (by simpa using hq), by simp⟩
      | succ q ih =>
        rw [Nat.mul_succ] at hq
        obtain ⟨bs, h1, h2⟩ := ih (args.drop batch) (by rw [List.length_drop]; omega)
        refine ⟨args.take batch :: bs, by rw [List.flatten_cons, ← h1, List.take_append_drop], ?_⟩
        intro b hb'
        rcases List.mem_cons.mp hb' with rfl | hb'
        · rw [List.length_take]; omega
        · exact h2 b hb'
    obtain ⟨bs, h1, h2⟩ := this
    exact ⟨bs, h1, h2, fun bs' h1' h2' => uniq bs bs' (by rw [← h1, ← h1']) h2 h2'⟩
  · intro h f s
    unfold forEachNArgs
    simp only [hb, if_false]
    rw [if_neg h]
  · intro f s; rfl

example : forEachNArgs 2 0 (fun xs s => s ++ [xs]) [1, 2, 3, 4] [] = .ok [[1, 2], [3, 4]] := by decide

/-! ## C76 -/

/-- A callable leaves as many arguments as it gets. -/
def Callable.Fair (f : Callable α β σ) : Prop := ∀ xs s, (f xs s).2.1.length = xs.length

/-- **C76, one call.** The bound arguments come first (last), the others keep their order, and what the function leaves in
them is what the caller and the next call see. -/
theorem C76_one_call_partial (f : Callable α β σ) (hf : f.Fair) (xs ys : List α) (s : σ) :
    (bindFront f ys (xs, s)).1 = (f (xs ++ ys) s).1 ∧
    (bindFront f ys (xs, s)).2.2.1 ++ (bindFront f ys (xs, s)).2.1 = (f (xs ++ ys) s).2.1 ∧
    (bindFront f ys (xs, s)).2.2.1.length = xs.length ∧
    (bindBack f ys (xs, s)).1 = (f (ys ++ xs) s).1 ∧
    (bindBack f ys (xs, s)).2.1 ++ (bindBack f ys (xs, s)).2.2.1 = (f (ys ++ xs) s).2.1 ∧
    (bindBack f ys (xs, s)).2.2.1.length = xs.length := by
  have h1 := hf (xs ++ ys) s
  have h2 := hf (ys ++ xs) s
  rw [List.length_append] at h1 h2
  refine ⟨rfl, List.take_append_drop _ _, ?_, rfl, List.take_append_drop _ _, ?_⟩
  · unfold bindFront; simp only; rw [List.length_take]; omega
  · unfold bindBack; simp only; rw [List.length_drop]; omega

/-- Bound callables are fair. -/
theorem bind_fair (f : Callable α β σ) (hf : f.Fair) : (bindFront f).Fair ∧ (bindBack f).Fair := by
  constructor
  · intro ys st
    have := hf (st.1 ++ ys) st.2
    rw [List.length_append] at this
    unfold bindFront; simp only; rw [List.length_drop]; omega
  · intro ys st
    have := hf (ys ++ st.1) st.2
    rw [List.length_append] at this
    unfold bindBack; simp only; rw [List.length_take]; omega

/-- **C76, stages.** Binding in two stages and binding at once give the same results, leave the same arguments and the same
bound values, over every sequence of calls. -/
theorem C76_front_stages (f : Callable α β σ) (hf : f.Fair) (calls : List (List α)) (xs ys : List α) (s : σ) :
    (callSeq (bindFront (bindFront f)) calls (ys, (xs, s))).1 = (callSeq (bindFront f) calls (xs ++ ys, s)).1 ∧
    (callSeq (bindFront (bindFront f)) calls (ys, (xs, s))).2.2.1 ++ (callSeq (bindFront (bindFront f)) calls (ys, (xs, s))).2.1 =
      (callSeq (bindFront f) calls (xs ++ ys, s)).2.1 ∧
    (callSeq (bindFront (bindFront f)) calls (ys, (xs, s))).2.2.2 = (callSeq (bindFront f) calls (xs ++ ys, s)).2.2 := by
  induction calls generalizing xs ys s with
  | nil => exact ⟨rfl, rfl, rfl⟩
  | cons a as ih =>
    have hl := hf (xs ++ ys ++ a) s
    simp only [List.length_append] at hl
    have e1 : bindFront (bindFront f) a (ys, (xs, s)) =
        ((f (xs ++ ys ++ a) s).1, (f (xs ++ ys ++ a) s).2.1.drop (xs.length + ys.length),
          (((f (xs ++ ys ++ a) s).2.1.drop xs.length).take ys.length, ((f (xs ++ ys ++ a) s).2.1.take xs.length, (f (xs ++ ys ++ a) s).2.2))) := by
      unfold bindFront
      simp only [List.append_assoc, List.drop_drop]
    have e2 : bindFront f a (xs ++ ys, s) =
        ((f (xs ++ ys ++ a) s).1, (f (xs ++ ys ++ a) s).2.1.drop (xs.length + ys.length),
          ((f (xs ++ ys ++ a) s).2.1.take (xs.length + ys.length), (f (xs ++ ys ++ a) s).2.2)) := by
      unfold bindFront
      simp only [List.length_append]
    have e3 : (f (xs ++ ys ++ a) s).2.1.take (xs.length + ys.length) =
        (f (xs ++ ys ++ a) s).2.1.take xs.length ++ ((f (xs ++ ys ++ a) s).2.1.drop xs.length).take ys.length := List.take_add
    have := ih ((f (xs ++ ys ++ a) s).2.1.take xs.length) (((f (xs ++ ys ++ a) s).2.1.drop xs.length).take ys.length) (f (xs ++ ys ++ a) s).2.2
    rw [← e3] at this
    rw [callSeq, callSeq, e1, e2]
    simp only
    exact ⟨by rw [this.1], this.2.1, this.2.2⟩

/-- **C76, stages at the back.** The later bound arguments come before the earlier ones. -/
theorem C76_back_stages (f : Callable α β σ) (hf : f.Fair) (calls : List (List α)) (xs ys : List α) (s : σ) :
    (callSeq (bindBack (bindBack f)) calls (ys, (xs, s))).1 = (callSeq (bindBack f) calls (ys ++ xs, s)).1 ∧
    (callSeq (bindBack (bindBack f)) calls (ys, (xs, s))).2.1 ++ (callSeq (bindBack (bindBack f)) calls (ys, (xs, s))).2.2.1 =
      (callSeq (bindBack f) calls (ys ++ xs, s)).2.1 ∧
    (callSeq (bindBack (bindBack f)) calls (ys, (xs, s))).2.2.2 = (callSeq (bindBack f) calls (ys ++ xs, s)).2.2 := by
  induction calls generalizing xs ys s with
  | nil => exact ⟨rfl, rfl, rfl⟩
  | cons a as ih =>
    have hl := hf (a ++ (ys ++ xs)) s
    simp only [List.length_append] at hl
    have e1 : bindBack (bindBack f) a (ys, (xs, s)) =
        ((f (a ++ (ys ++ xs)) s).1, (f (a ++ (ys ++ xs)) s).2.1.take a.length,
          (((f (a ++ (ys ++ xs)) s).2.1.drop a.length).take ys.length, (((f (a ++ (ys ++ xs)) s).2.1.drop a.length).drop ys.length, (f (a ++ (ys ++ xs)) s).2.2))) := by
      unfold bindBack
      simp only [List.append_assoc, List.length_append, List.drop_drop, List.take_take, List.drop_take]
      rw [Nat.min_eq_left (by omega), Nat.add_sub_cancel_left]
    have e2 : bindBack f a (ys ++ xs, s) =
        ((f (a ++ (ys ++ xs)) s).1, (f (a ++ (ys ++ xs)) s).2.1.take a.length, ((f (a ++ (ys ++ xs)) s).2.1.drop a.length, (f (a ++ (ys ++ xs)) s).2.2)) := rfl
    have := ih (((f (a ++ (ys ++ xs)) s).2.1.drop a.length).drop ys.length) (((f (a ++ (ys ++ xs)) s).2.1.drop a.length).take ys.length) (f (a ++ (ys ++ xs)) s).2.2
    rw [List.take_append_drop] at this
    rw [callSeq, callSeq, e1, e2]
    simp only
    exact ⟨by rw [this.1], this.2.1, this.2.2⟩

/-- **C76, both ends.** Binding at the front and at the back in either order gives the same results over every sequence of
calls. -/
theorem C76_front_back_commute (f : Callable α β σ) (hf : f.Fair) (calls : List (List α)) (xs ys : List α) (s : σ) :
    (callSeq (bindFront (bindBack f)) calls (xs, (ys, s))).1 = (callSeq (bindBack (bindFront f)) calls (ys, (xs, s))).1 := by
  suffices h : (callSeq (bindFront (bindBack f)) calls (xs, (ys, s))).1 = (callSeq (bindBack (bindFront f)) calls (ys, (xs, s))).1 from h
  induction calls generalizing xs ys s with
  | nil => rfl
  | cons a as ih =>
    have hl := hf (xs ++ (a ++ ys)) s
    simp only [List.length_append] at hl
    have e1 : bindFront (bindBack f) a (xs, (ys, s)) =
        ((f (xs ++ (a ++ ys)) s).1, ((f (xs ++ (a ++ ys)) s).2.1.drop xs.length).take a.length,
          ((f (xs ++ (a ++ ys)) s).2.1.take xs.length, ((f (xs ++ (a ++ ys)) s).2.1.drop (xs.length + a.length), (f (xs ++ (a ++ ys)) s).2.2))) := by
      unfold bindFront bindBack
      simp only [List.append_assoc, List.length_append, List.take_take, List.drop_take]
      rw [Nat.min_eq_left (by omega), Nat.add_sub_cancel_left]
    have e2 : bindBack (bindFront f) a (ys, (xs, s)) =
        ((f (xs ++ (a ++ ys)) s).1, ((f (xs ++ (a ++ ys)) s).2.1.drop xs.length).take a.length,
          ((f (xs ++ (a ++ ys)) s).2.1.drop (xs.length + a.length), ((f (xs ++ (a ++ ys)) s).2.1.take xs.length, (f (xs ++ (a ++ ys)) s).2.2))) := by
      unfold bindFront bindBack
      simp only [List.drop_drop]
    rw [callSeq, callSeq, e1, e2]
    simp only
    rw [ih]

/-- A function that adds its first argument to its last and remembers the number of calls. -/
example : ∃ f : Callable Nat Nat Nat, f.Fair ∧ (callSeq (bindFront f) [[5], [6]] ([1, 2], 0)).1 = [(8, [6]), (9, [7])] := by
  refine ⟨fun xs n => (xs.sum, xs.mapIdx (fun i x => if i = 2 then x + 1 else x), n + 1), fun xs s => by simp, by decide⟩

end Verif.Util
