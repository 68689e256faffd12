import Verif.Bitset.Lemmas

/-!
# Bit-level facts about the constructors and conversions of `bitset`
-/

namespace Verif.Bitset

open Verif.BitOps

theorem wd_empty {w N j : Nat} : wd (empty w N) j = 0#w := by
  unfold wd empty
  rw [List.getElem?_replicate]
  split <;> rfl

theorem bits_empty {w N i : Nat} : bits (empty w N) i = false := by
  unfold bits; rw [wd_empty]; simp

theorem length_empty {w N : Nat} : (empty w N).length = storageSize w N := by simp [empty]

theorem bits_cons {w : Nat} (hw : 0 < w) {e : BitVec w} {s : Words w} {i : Nat} :
    bits (e :: s) i = if i < w then e.getLsbD i else bits s (i - w) := by
  unfold bits
  by_cases h : i < w
  · rw [if_pos h, Nat.div_eq_of_lt h, Nat.mod_eq_of_lt h]; simp [wd]
  · rw [if_neg h]
    have h1 : i / w = (i - w) / w + 1 := by
      rw [← Nat.add_div_right (i - w) hw]; congr 1; omega
    have h2 : i % w = (i - w) % w := by
      rw [← Nat.add_mod_right (i - w) w]; congr 1; omega
    rw [h1, h2]; simp [wd]

theorem u64Loop_spec {w : Nat} (hw : 0 < w) (hw64 : w < 64) : ∀ (s : Words w) (v : BitVec 64),
    (∀ i, bits s i = false) →
    ∃ r, u64Loop s v = .ok r ∧ r.length = s.length ∧ ∀ i, i < s.length * w → bits r i = v.getLsbD i := by
  intro s
  induction s with
  | nil => intro v _; exact ⟨[], rfl, rfl, fun i hi => by simp at hi⟩
  | cons e es ih =>
    intro v hz
    by_cases hv : v = 0#64
    · exact ⟨e :: es, by simp [u64Loop, hv], rfl, fun i _ => by rw [hz, hv]; simp⟩
    · have hes : ∀ i, bits es i = false := by
        intro i
        have := hz (i + w)
        rwa [bits_cons hw, if_neg (by omega), Nat.add_sub_cancel] at this
      obtain ⟨r, er, hl, hb⟩ := ih (v >>> w) hes
      refine ⟨v.setWidth w :: r, by simp [u64Loop, hv, cshr_ok hw64, er], by simp [hl], fun i hi => ?_⟩
      rw [bits_cons hw]
      by_cases h : i < w
      · rw [if_pos h, BitVec.getLsbD_setWidth]; simp [h]
      · rw [if_neg h, hb (i - w) (by
          simp only [List.length_cons, Nat.add_mul] at hi; omega), BitVec.getLsbD_ushiftRight]
        congr 1; omega

theorem ofU64_spec {w : Nat} (hw : StdWidth w) {N : Nat} (hN : N ≠ 0 ∨ w ≠ 64) (v : BitVec 64) :
    ∃ r, ofU64 w N v = .ok r ∧ r.length = storageSize w N ∧
      ∀ i, i < storageSize w N * w → bits r i = v.getLsbD i := by
  have hw0 : 0 < w := by rcases hw with rfl | rfl | rfl | rfl <;> omega
  unfold ofU64
  by_cases h : w = 64
  · subst h
    have hp := storageSize_pos (w := 64) (N := N) (by omega) (by omega)
    have hl : 0 < (empty 64 N).length := by rw [length_empty]; exact hp
    refine ⟨(empty 64 N).set 0 (v.setWidth 64), by simp [hl], by simp [length_empty], fun i hi => ?_⟩
    rw [bits_set_word (by omega) hl, bits_empty]
    by_cases h1 : i / 64 = 0
    · rw [if_pos h1, Nat.mod_eq_of_lt (by omega)]; simp
    · rw [if_neg h1, BitVec.getLsbD_of_ge _ _ (by omega)]
  · rw [if_neg h]
    obtain ⟨r, e, hl, hb⟩ := u64Loop_spec hw0 (by rcases hw with rfl | rfl | rfl | rfl <;> omega)
      (empty w N) v (fun i => bits_empty)
    rw [length_empty] at hl hb
    exact ⟨r, e, hl, hb⟩

theorem placeBits_spec {w : Nat} (hw : 0 < w) : ∀ (ps : List Nat) (s : Words w),
    (∀ p ∈ ps, p < s.length * w) →
    ∃ r, placeBits ps s = .ok r ∧ r.length = s.length ∧
      ∀ j, bits r j = (decide (j ∈ ps) || bits s j) := by
  intro ps
  induction ps with
  | nil => intro s _; exact ⟨s, rfl, rfl, fun j => by simp⟩
  | cons p ps ih =>
    intro s h
    obtain ⟨s1, e1, hl1, hb1⟩ := set_spec hw (h p (by simp)) true
    obtain ⟨r, e, hl, hb⟩ := ih s1 (fun q hq => by rw [hl1]; exact h q (by simp [hq]))
    refine ⟨r, by simp [placeBits, e1, e], by omega, fun j => ?_⟩
    rw [hb, hb1]
    by_cases h1 : j = p <;> simp [h1]

/-- The mask of the last word selects the positions below `N`. -/
theorem lastmask_spec {w : Nat} (hw : 0 < w) {N : Nat} (hN : 0 < N) {k : Nat} (hk : k < w) :
    (lastmask w N).getLsbD k = decide ((storageSize w N - 1) * w + k < N) := by
  have hb := storage_bounds hw N
  have hp := storageSize_pos hw hN
  have h1 : (storageSize w N - 1) * w = storageSize w N * w - w := by rw [Nat.sub_mul, Nat.one_mul]
  have h2 : w ≤ storageSize w N * w := Nat.le_mul_of_pos_left w hp
  have hmod := Nat.mod_lt N hw
  have hdiv : N = N / w * w + N % w := by rw [Nat.mul_comm]; exact (Nat.div_add_mod N w).symm
  have hle : (storageSize w N - 1) * w ≤ N := by omega
  -- the remainder of N
  obtain ⟨c, hc⟩ : ∃ c, N = (storageSize w N - 1) * w + c := ⟨N - (storageSize w N - 1) * w, by omega⟩
  have hc1 : 0 < c := by omega
  have hc2 : c ≤ w := by omega
  have hNm : N % w = c % w := by
    rw [congrArg (· % w) hc]
    show ((storageSize w N - 1) * w + c) % w = c % w
    rw [Nat.mul_comm, Nat.mul_add_mod]
  unfold lastmask
  by_cases h : N % w = 0
  · rw [if_neg (by omega)]
    have : c = w := by
      rcases Nat.lt_or_ge c w with h3 | h3
      · rw [Nat.mod_eq_of_lt h3] at hNm; omega
      · omega
    simp only [BitVec.getLsbD_allOnes, hk, decide_true]
    symm; simp; omega
  · rw [if_pos h, getLsbD_ones_shr]
    have : c < w := by
      rcases Nat.lt_or_ge c w with h3 | h3
      · exact h3
      · have : c = w := by omega
        rw [this, Nat.mod_self] at hNm; omega
    rw [Nat.mod_eq_of_lt this] at hNm
    rw [hNm]
    rw [decide_eq_decide]
    constructor <;> omega

theorem highbits_spec {w : Nat} (hw : 0 < w) {N : Nat} (hN : 0 < N) {s : Words w}
    (hs : s.length = storageSize w N) :
    ∃ h, highbits N s = .ok h ∧ ∀ k, k < w → h.getLsbD k =
      (decide ((storageSize w N - 1) * w + k < N) && bits s ((storageSize w N - 1) * w + k)) := by
  have hp := storageSize_pos hw hN
  refine ⟨wd s (storageSize w N - 1) &&& lastmask w N, ?_, fun k hk => ?_⟩
  · simp [highbits, back_wd (show 0 < s.length by omega), hs]
  · rw [BitVec.getLsbD_and, lastmask_spec hw hN hk, bits_mk hk, Bool.and_comm]

theorem allBits_spec {w : Nat} (hw : 0 < w) (N : Nat) :
    ∃ r, allBits w N = .ok r ∧ r.length = storageSize w N ∧ ∀ i, bits r i = decide (i < N) := by
  unfold allBits
  have hlen : ((empty w N).map fun _ => BitVec.allOnes w).length = storageSize w N := by
    simp [length_empty]
  have hall : ∀ j, j < storageSize w N → wd ((empty w N).map fun _ => BitVec.allOnes w) j = BitVec.allOnes w := by
    intro j hj; rw [wd_map (by rwa [length_empty])]
  by_cases hN : 0 < N
  · have hp := storageSize_pos hw hN
    have hb := storage_bounds hw N
    have hd : storageSize w N - 1 < ((empty w N).map fun _ => BitVec.allOnes w).length := by omega
    refine ⟨((empty w N).map fun _ => BitVec.allOnes w).set (storageSize w N - 1)
      (BitVec.allOnes w &&& lastmask w N), ?_, by simp [length_empty], fun i => ?_⟩
    · simp only [gt_iff_lt, hN, ↓reduceIte]
      rw [back_wd (by omega), hlen, hall _ (by omega)]
      simp only [Outcome.ok_bind]
      rw [arrSet_of_lt hd]
    · rw [bits_set_word hw hd]
      obtain ⟨j, k, rfl, hk, e1, e2⟩ := split_pos hw i
      rw [e1, e2]
      have h1 : (storageSize w N - 1) * w = storageSize w N * w - w := by rw [Nat.sub_mul, Nat.one_mul]
      have h2 : w ≤ storageSize w N * w := Nat.le_mul_of_pos_left w hp
      by_cases h : j = storageSize w N - 1
      · rw [if_pos h, BitVec.getLsbD_and, lastmask_spec hw hN hk, h]; simp [hk]
      · rw [if_neg h, bits_mk hk]
        rcases Nat.lt_or_ge j (storageSize w N) with h3 | h3
        · rw [hall j h3]
          have : (j + 1) * w ≤ (storageSize w N - 1) * w := Nat.mul_le_mul_right w (by omega)
          rw [Nat.add_mul] at this
          simp [hk]; omega
        · rw [wd_ge (by omega)]
          have : storageSize w N * w ≤ j * w := Nat.mul_le_mul_right w h3
          simp; omega
  · have hN0 : N = 0 := by omega
    subst hN0
    refine ⟨_, by simp, hlen, fun i => ?_⟩
    rw [bits_ge hw (by rw [hlen, storageSize_zero hw]; omega)]; simp

theorem strLoop_spec {w : Nat} (hw : 0 < w) {one : Char} : ∀ (cs : List Char) (i : Nat) (s : Words w),
    i + cs.length ≤ s.length * w →
    ∃ r, strLoop one cs i s = .ok r ∧ r.length = s.length ∧
      ∀ j, bits r j = if i ≤ j ∧ j < i + cs.length then decide (cs[j - i]? = some one) else bits s j := by
  intro cs
  induction cs with
  | nil => intro i s _; exact ⟨s, rfl, rfl, fun j => by rw [if_neg (by simp)]⟩
  | cons c cs ih =>
    intro i s h
    simp only [List.length_cons] at h
    obtain ⟨s1, e1, hl1, hb1⟩ := set_spec hw (show i < s.length * w by omega) (c == one)
    obtain ⟨r, e, hl, hb⟩ := ih (i + 1) s1 (by rw [hl1]; omega)
    refine ⟨r, by simp [strLoop, e1, e], by omega, fun j => ?_⟩
    rw [hb, hb1, List.length_cons]
    by_cases h1 : j = i
    · subst h1
      rw [if_neg (by omega), if_pos rfl, if_pos (by omega), Nat.sub_self]
      simp; rfl
    · rw [if_neg h1]
      by_cases h2 : i + 1 ≤ j ∧ j < i + 1 + cs.length
      · rw [if_pos h2, if_pos (by omega), show j - i = (j - (i + 1)) + 1 by omega]; simp
      · rw [if_neg h2, if_neg (by omega)]

theorem ofString_spec {w : Nat} (hw : 0 < w) {N : Nat} {str : List Char} {pos n : Nat} (one : Char)
    (hpos : pos ≤ str.length) :
    ∃ r, ofString w N str pos n one = .ok r ∧ r.length = storageSize w N ∧
      ∀ i, bits r i = decide ((((str.drop pos).take n).take N).reverse[i]? = some one) := by
  unfold ofString
  rw [if_neg (by omega)]
  have hb := storage_bounds hw N
  have e0 : (str.drop pos).take (min (min n (str.length - pos)) N) = ((str.drop pos).take n).take N := by
    rw [List.take_take, ← List.length_drop, List.take_eq_take_iff]; omega
  simp only [e0]
  have hlen : (((str.drop pos).take n).take N).length ≤ N := by rw [List.length_take]; omega
  obtain ⟨r, e, hl, hbits⟩ := strLoop_spec hw (one := one) (((str.drop pos).take n).take N).reverse 0 (empty w N)
    (by rw [length_empty, List.length_reverse]; omega)
  refine ⟨r, e, by rw [hl, length_empty], fun i => ?_⟩
  rw [hbits, bits_empty]
  by_cases h : i < (((str.drop pos).take n).take N).reverse.length
  · rw [if_pos (by omega)]; simp
  · rw [if_neg (by omega), List.getElem?_eq_none (by omega)]; simp

theorem toLoop_spec {w u : Nat} (hwu : w < u) {s : Words w} (hw : 0 < w) : ∀ (i : Nat) (r : BitVec u),
    i ≤ s.length →
    ∃ r', toLoop u s i r = .ok r' ∧ ∀ k, k < u → r'.getLsbD k =
      if k < i * w then bits s k else r.getLsbD (k - i * w) := by
  intro i
  induction i with
  | zero => intro r _; exact ⟨r, rfl, fun k _ => by simp⟩
  | succ i ih =>
    intro r hi
    obtain ⟨r', e, hb⟩ := ih ((r <<< w) ||| (wd s i).setWidth u) (by omega)
    refine ⟨r', by simp [toLoop, cshl_ok hwu, arrGet_wd (show i < s.length by omega), e], fun k hk => ?_⟩
    rw [hb k hk, Nat.add_mul, Nat.one_mul]
    by_cases h1 : k < i * w
    · rw [if_pos h1, if_pos (by omega)]
    · rw [if_neg h1, BitVec.getLsbD_or, BitVec.getLsbD_shiftLeft, BitVec.getLsbD_setWidth]
      by_cases h2 : k < i * w + w
      · rw [if_pos h2]
        have : bits s k = (wd s i).getLsbD (k - i * w) := by
          conv => lhs; rw [show k = i * w + (k - i * w) by omega]
          exact bits_mk (by omega)
        rw [this]
        simp [show k - i * w < w by omega, show k - i * w < u by omega]
      · rw [if_neg h2, BitVec.getLsbD_of_ge (wd s i) _ (by omega)]
        simp [show ¬ k - i * w < w by omega, show k - i * w < u by omega]
        congr 1; omega

end Verif.Bitset
