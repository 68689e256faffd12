import Verif.Bitset.Props

/-!
# Equality, counting and traversal of `bitset` (C10, C11, C12, C13)
-/

namespace Verif.Bitset

open Verif.BitOps

/-! ## Equality -/

theorem eqLoop_spec {w : Nat} {a b : Words w} : ∀ (k i : Nat), i + k ≤ a.length → i + k ≤ b.length →
    ∃ r, eqLoop a b k i = .ok r ∧ (r = true ↔ ∀ j, i ≤ j → j < i + k → wd a j = wd b j) := by
  intro k
  induction k with
  | zero => intro i _ _; exact ⟨true, rfl, by simp; omega⟩
  | succ k ih =>
    intro i h1 h2
    simp only [eqLoop, arrGet_wd (show i < a.length by omega), arrGet_wd (show i < b.length by omega),
      Outcome.ok_bind]
    by_cases h : wd a i = wd b i
    · rw [if_neg (by simp [h])]
      obtain ⟨r, e, hr⟩ := ih (i + 1) (by omega) (by omega)
      refine ⟨r, e, hr.trans ⟨fun H j h3 h4 => ?_, fun H j h3 h4 => H j (by omega) (by omega)⟩⟩
      by_cases h5 : j = i
      · rw [h5, h]
      · exact H j (by omega) (by omega)
    · rw [if_pos h]
      exact ⟨false, rfl, by simp; exact ⟨i, by omega, by omega, h⟩⟩

/-- **C10, equality.** On arbitrary contents, including whatever is stored at or above `N`,
`a == b` is defined and holds exactly when `operator[]` agrees at every position below `N`. -/
theorem C10_bitset_eq {w : Nat} (hw : 0 < w) {N : Nat} {a b : Words w} (ha : a.length = storageSize w N)
    (hb : b.length = storageSize w N) :
    ∃ r, eq N a b = .ok r ∧ (r = true ↔ ∀ i, i < N → get a i = get b i) := by
  have hB := storage_bounds hw N
  unfold eq
  by_cases hN0 : N = 0
  · exact ⟨true, by simp [hN0], by simp [hN0]⟩
  · have hN : 0 < N := by omega
    have hp := storageSize_pos hw hN
    have hsz : (storageSize w N - 1) * w = storageSize w N * w - w := by rw [Nat.sub_mul, Nat.one_mul]
    have hle2 : w ≤ storageSize w N * w := Nat.le_mul_of_pos_left w hp
    rw [if_neg hN0, szDec_of_pos hp]
    obtain ⟨r, e, hr⟩ := eqLoop_spec (a := a) (b := b) (storageSize w N - 1) 0 (by omega) (by omega)
    obtain ⟨x, ex, hx⟩ := highbits_spec hw hN ha
    obtain ⟨y, ey, hy⟩ := highbits_spec hw hN hb
    have hxy : (x == y) = true ↔ ∀ k, k < w → (storageSize w N - 1) * w + k < N →
        bits a ((storageSize w N - 1) * w + k) = bits b ((storageSize w N - 1) * w + k) := by
      rw [beq_iff_eq]
      constructor
      · intro h k hk hlt
        have := hx k hk
        rw [h, hy k hk] at this
        simpa [hlt] using this.symm
      · intro h
        apply BitVec.eq_of_getLsbD_eq
        intro k hk
        rw [hx k hk, hy k hk]
        by_cases h1 : (storageSize w N - 1) * w + k < N
        · rw [h k hk h1]
        · simp [h1]
    have hget : (∀ i, i < N → get a i = get b i) ↔ ∀ i, i < N → bits a i = bits b i := by
      constructor
      · intro h i hi
        have := h i hi
        rwa [get_bits hw (by rw [ha]; omega), get_bits hw (by rw [hb]; omega), Outcome.ok.injEq] at this
      · intro h i hi
        rw [get_bits hw (by rw [ha]; omega), get_bits hw (by rw [hb]; omega), h i hi]
    rw [hget]
    simp only [e, Outcome.ok_bind]
    by_cases hr1 : r = false
    · refine ⟨false, by simp [hr1], ?_⟩
      simp only [Bool.false_eq_true, false_iff]
      intro H
      rw [hr1] at hr
      simp only [Bool.false_eq_true, false_iff] at hr
      apply hr
      intro j _ hj
      apply BitVec.eq_of_getLsbD_eq
      intro k hk
      have h3 : (j + 1) * w ≤ (storageSize w N - 1) * w := Nat.mul_le_mul_right w (by omega)
      rw [Nat.add_mul] at h3
      have := H (j * w + k) (by omega)
      rwa [bits_mk hk, bits_mk hk] at this
    · have hr2 : r = true := by simpa using hr1
      refine ⟨x == y, by simp [hr2, ex, ey], hxy.trans ⟨fun H i hi => ?_, fun H k _ hk => H _ hk⟩⟩
      obtain ⟨j, k, rfl, hk, _, _⟩ := split_pos hw i
      have hj : j < storageSize w N := (pos_lt_iff hk).mp (by omega)
      by_cases hj1 : j = storageSize w N - 1
      · subst hj1; exact H k hk hi
      · rw [bits_mk hk, bits_mk hk, (hr.mp hr2) j (by omega) (by omega)]

/-! ## Positions -/

/-- The positions below `n` that satisfy `p`, in ascending order. -/
def positions (n : Nat) (p : Nat → Bool) : List Nat := (List.range n).filter p

theorem positions_add (m n : Nat) (p : Nat → Bool) :
    positions (m + n) p = positions m p ++ (positions n (fun i => p (m + i))).map (m + ·) := by
  unfold positions
  rw [List.range_add, List.filter_append, List.filter_map]
  rfl

theorem positions_congr {n : Nat} {p q : Nat → Bool} (h : ∀ i, i < n → p i = q i) :
    positions n p = positions n q :=
  List.filter_congr (fun i hi => h i (by simpa using hi))

theorem positions_extend {m n : Nat} {p : Nat → Bool} (hmn : m ≤ n) (h : ∀ i, m ≤ i → i < n → p i = false) :
    positions n p = positions m p := by
  obtain ⟨d, rfl⟩ := Nat.exists_eq_add_of_le hmn
  rw [positions_add]
  have : positions d (fun i => p (m + i)) = [] := by
    unfold positions
    rw [List.filter_eq_nil_iff]
    intro i hi
    rw [h (m + i) (by omega) (by simp at hi; omega)]; simp
  rw [this]; simp

theorem popcount_positions {w : Nat} (hw : StdWidth w) (x : BitVec w) :
    popcount x = (positions w x.getLsbD).length := C07_popcount hw x

theorem countLoop_spec {w : Nat} (hw : StdWidth w) {s : Words w} : ∀ (k i n : Nat), i + k ≤ s.length →
    countLoop s k i n = .ok (n + (positions (k * w) (fun j => bits s (i * w + j))).length) := by
  intro k
  induction k with
  | zero => intro i n _; simp [countLoop, positions]
  | succ k ih =>
    intro i n h
    simp only [countLoop, arrGet_wd (show i < s.length by omega), Outcome.ok_bind]
    rw [ih (i + 1) _ (by omega), show (k + 1) * w = w + k * w by rw [Nat.add_mul, Nat.one_mul, Nat.add_comm], positions_add,
      List.length_append, List.length_map, popcount_positions hw]
    have e1 : positions w (fun j => bits s (i * w + j)) = positions w (wd s i).getLsbD :=
      positions_congr (fun j hj => bits_mk hj)
    have e2 : (fun j => bits s ((i + 1) * w + j)) = (fun j => bits s (i * w + (w + j))) := by
      funext j; rw [Nat.add_mul, Nat.one_mul, Nat.add_assoc]
    rw [e1, e2]
    congr 1
    omega

/-- `N` splits into the full words and the part in the last word. -/
theorem split_last {w : Nat} (hw : 0 < w) {N : Nat} (hN : 0 < N) (p : Nat → Bool) :
    positions N p = positions ((storageSize w N - 1) * w) p ++
      (positions w (fun k => decide ((storageSize w N - 1) * w + k < N) &&
        p ((storageSize w N - 1) * w + k))).map ((storageSize w N - 1) * w + ·) := by
  have hB := storage_bounds hw N
  have hp := storageSize_pos hw hN
  have hsz : (storageSize w N - 1) * w = storageSize w N * w - w := by rw [Nat.sub_mul, Nat.one_mul]
  have hle2 : w ≤ storageSize w N * w := Nat.le_mul_of_pos_left w hp
  generalize (storageSize w N - 1) * w = c at *
  obtain ⟨d, rfl⟩ : ∃ d, N = c + d := ⟨N - c, by omega⟩
  rw [positions_add, positions_extend (m := d) (n := w) (by omega) (by intro i h _; simp; omega)]
  congr 2
  exact positions_congr (fun i hi => by simp [hi])

/-- **C10, count.** On arbitrary contents, `count()` is the number of positions below `N` at which
`operator[]` answers true. -/
theorem C10_bitset_count {w : Nat} (hw : StdWidth w) {N : Nat} {s : Words w}
    (hs : s.length = storageSize w N) :
    count N s = .ok ((List.range N).filter (fun i => get s i == .ok true)).length := by
  have hw0 := StdWidth.pos hw
  have hB := storage_bounds hw0 N
  have hget : (List.range N).filter (fun i => get s i == .ok true) = positions N (bits s) := by
    apply List.filter_congr
    intro i hi
    rw [get_bits hw0 (by rw [hs]; simp at hi; omega)]
    cases bits s i <;> rfl
  rw [hget]
  unfold count
  by_cases hN0 : N = 0
  · subst hN0; simp [positions]
  · have hN : 0 < N := by omega
    have hp := storageSize_pos hw0 hN
    rw [if_neg hN0, szDec_of_pos hp]
    obtain ⟨h, e, hbits⟩ := highbits_spec hw0 hN hs
    simp only [e, Outcome.ok_bind]
    rw [countLoop_spec hw _ _ _ (by omega), split_last hw0 hN, List.length_append, List.length_map,
      popcount_positions hw, positions_congr hbits]
    simp only [Nat.zero_mul, Nat.zero_add]
    congr 1
    exact Nat.add_comm _ _

/-- **C10, predicates.** `all`, `any`, `none`/`empty` say that all, some, none of the positions below
`N` are set. -/
theorem C10_bitset_predicates {w : Nat} (hw : StdWidth w) {N : Nat} {s : Words w}
    (hs : s.length = storageSize w N) :
    (∃ r, all N s = .ok r ∧ (r = true ↔ ∀ i, i < N → get s i = .ok true)) ∧
    (∃ r, any N s = .ok r ∧ (r = true ↔ ∃ i, i < N ∧ get s i = .ok true)) ∧
    (∃ r, isEmpty N s = .ok r ∧ (r = true ↔ ∀ i, i < N → get s i = .ok false)) := by
  have hw0 := StdWidth.pos hw
  have hB := storage_bounds hw0 N
  have hgb : ∀ i, i < N → get s i = .ok (bits s i) := fun i hi => get_bits hw0 (by rw [hs]; omega)
  have hc := C10_bitset_count hw hs
  refine ⟨⟨_, by rw [all, hc]; rfl, ?_⟩, ⟨_, by rw [any, hc]; rfl, ?_⟩, ⟨_, by rw [isEmpty, hc]; rfl, ?_⟩⟩
  · rw [beq_iff_eq]
    constructor
    · intro h i hi
      have h1 : (List.range N).filter (fun i => get s i == .ok true) = List.range N :=
        List.filter_sublist.eq_of_length (by rw [h, List.length_range])
      rw [List.filter_eq_self] at h1
      have := h1 i (by simpa using hi)
      simpa using this
    · intro h
      rw [List.filter_eq_self.mpr (fun i hi => by simpa using h i (by simpa using hi)), List.length_range]
  · rw [bne_iff_ne, ne_eq, List.length_eq_zero_iff, List.filter_eq_nil_iff]
    simp
  · rw [beq_iff_eq, List.length_eq_zero_iff, List.filter_eq_nil_iff]
    simp only [List.mem_range, beq_iff_eq]
    constructor
    · intro h i hi
      have := h i hi
      rw [hgb i hi] at this ⊢
      simpa using this
    · intro h i hi
      rw [h i hi]; simp

/-- **C10, unused bits do not matter.** Two bitsets whose answers agree below `N` have the same
count and compare equal, however their storage differs above. -/
theorem C10_bitset_unused_bits_invisible {w : Nat} (hw : StdWidth w) {N : Nat} {a b : Words w}
    (ha : a.length = storageSize w N) (hb : b.length = storageSize w N)
    (h : ∀ i, i < N → get a i = get b i) : eq N a b = .ok true ∧ count N a = count N b := by
  constructor
  · obtain ⟨r, e, hr⟩ := C10_bitset_eq (StdWidth.pos hw) ha hb
    rw [e, hr.mpr h]
  · rw [C10_bitset_count hw ha, C10_bitset_count hw hb]
    congr 2
    exact List.filter_congr (fun i hi => by rw [h i (by simpa using hi)])

example : eq 4 [0x35#8] [0xf5#8] = .ok true ∧ count 4 [0xf5#8] = .ok 2 := by decide

/-! ## for_each -/

theorem range'_filter_first {p k n : Nat} {f : Nat → Bool} (hpk : p ≤ k) (hk : k < n)
    (h1 : ∀ j, p ≤ j → j < k → f j = false) (h2 : f k = true) :
    (List.range' p (n - p)).filter f = k :: (List.range' (k + 1) (n - (k + 1))).filter f := by
  have e : n - p = (k - p) + ((n - (k + 1)) + 1) := by omega
  rw [e, ← List.range'_append_1, List.filter_append, List.range'_succ]
  have : (List.range' p (k - p)).filter f = [] := by
    rw [List.filter_eq_nil_iff]
    intro j hj
    simp only [List.mem_range'_1] at hj
    rw [h1 j (by omega) (by omega)]; simp
  rw [this, List.nil_append, show p + (k - p) = k by omega, List.filter_cons, if_pos h2]

theorem setBitLoop_spec {w : Nat} (hw : StdWidth w) {σ : Type} (f : σ → Nat → σ) (idx : Nat) :
    ∀ (fuel p : Nat) (e : BitVec w) (st : σ), (∀ j, j < p → e.getLsbD j = false) → w ≤ p + fuel →
    setBitLoop f idx fuel e st =
      .ok ((((List.range' p (w - p)).filter e.getLsbD).map (idx + ·)).foldl f st) := by
  have hzero : ∀ l : List Nat, l.filter (0#w).getLsbD = [] := by
    intro l; rw [List.filter_eq_nil_iff]; intro j _; simp
  intro fuel
  induction fuel with
  | zero =>
    intro p e st hp hf
    have h0 : e = 0#w := by
      apply BitVec.eq_of_getLsbD_eq
      intro i hi
      rw [hp i (by omega)]; simp
    subst h0
    unfold setBitLoop
    rw [hzero]; simp
  | succ fuel ih =>
    intro p e st hp hf
    unfold setBitLoop
    by_cases h0 : e = 0#w
    · subst h0; rw [hzero]; simp
    · obtain ⟨k, ek, _, _, hk, hlow⟩ := C07_countr_zero hw e
      obtain ⟨hkw, hkb⟩ := hk h0
      have hpk : p ≤ k := by
        rcases Nat.lt_or_ge k p with h | h
        · rw [hp k h] at hkb; cases hkb
        · exact h
      simp only [h0, ↓reduceIte, ek, Outcome.ok_bind, Int.toNat_natCast, cshl_ok hkw]
      rw [range'_filter_first hpk hkw (fun j _ hj => hlow j hj) hkb]
      have hbit : ∀ j, j < w → (e &&& ~~~(1#w <<< k)).getLsbD j = (e.getLsbD j && decide (j ≠ k)) := by
        intro j hj
        rw [BitVec.getLsbD_and, BitVec.getLsbD_not, getLsbD_one_shl hkw]
        simp [hj]
      rw [ih (k + 1) _ _ (fun j hj => by
        rw [hbit j (by omega)]
        by_cases h : j = k
        · simp [h]
        · rw [hlow j (by omega)]; rfl) (by omega)]
      simp only [List.map_cons, List.foldl_cons]
      congr 3
      apply List.filter_congr
      intro j hj
      simp only [List.mem_range'_1] at hj
      rw [hbit j (by omega)]
      simp [show j ≠ k by omega]

theorem unsetBitLoop_spec {w : Nat} (hw : StdWidth w) {σ : Type} (f : σ → Nat → σ) (idx m : Nat)
    {mask : BitVec w} (hm : ∀ k, k < w → mask.getLsbD k = decide (k < m)) (hmw : m ≤ w) :
    ∀ (fuel p : Nat) (e : BitVec w) (st : σ), (∀ j, j < p → j < m → e.getLsbD j = true) →
    (∀ j, m ≤ j → e.getLsbD j = false) → m ≤ p + fuel →
    unsetBitLoop f mask idx fuel e st =
      .ok ((((List.range' p (m - p)).filter (fun j => !(e.getLsbD j))).map (idx + ·)).foldl f st) := by
  have hdone : ∀ (e : BitVec w), (∀ j, j < m → e.getLsbD j = true) → (∀ j, m ≤ j → e.getLsbD j = false) →
      e = mask := by
    intro e h1 h2
    apply BitVec.eq_of_getLsbD_eq
    intro k hk
    rw [hm k hk]
    by_cases h : k < m
    · rw [h1 k h]; simp [h]
    · rw [h2 k (by omega)]; simp [h]
  have hfin : ∀ (p : Nat) (st : σ), (.ok st : Outcome σ) =
      .ok ((((List.range' p (m - p)).filter (fun j => !(mask.getLsbD j))).map (idx + ·)).foldl f st) := by
    intro p st
    have : (List.range' p (m - p)).filter (fun j => !(mask.getLsbD j)) = [] := by
      rw [List.filter_eq_nil_iff]
      intro j hj
      simp only [List.mem_range'_1] at hj
      rw [hm j (by omega)]; simp; omega
    rw [this]; rfl
  intro fuel
  induction fuel with
  | zero =>
    intro p e st h1 h2 hf
    have h0 : e = mask := hdone e (fun j hj => h1 j (by omega) hj) h2
    subst h0
    unfold unsetBitLoop
    rw [if_pos rfl]; exact hfin p st
  | succ fuel ih =>
    intro p e st h1 h2 hf
    unfold unsetBitLoop
    by_cases h0 : e = mask
    · subst h0; rw [if_pos rfl]; exact hfin p st
    · obtain ⟨_, k, ek, hkw', hones, hkz⟩ := C07_count_ones hw e
      have hkm : k < m := by
        rcases Nat.lt_or_ge k m with h | h
        · exact h
        · exact absurd (hdone e (fun j hj => hones j (by omega)) h2) h0
      have hkw : k < w := by omega
      have hkb := hkz hkw
      have hpk : p ≤ k := by
        rcases Nat.lt_or_ge k p with h | h
        · rw [h1 k h hkm] at hkb; cases hkb
        · exact h
      simp only [h0, ↓reduceIte, ek, Outcome.ok_bind, Int.toNat_natCast, cshl_ok hkw]
      rw [range'_filter_first (f := fun j => !(e.getLsbD j)) hpk hkm
        (fun j _ hj => by simp [hones j hj]) (by simp [hkb])]
      have hbit : ∀ j, (e ||| (1#w <<< k)).getLsbD j = (e.getLsbD j || decide (j = k)) := by
        intro j
        rw [BitVec.getLsbD_or, getLsbD_one_shl hkw]
      rw [ih (k + 1) _ _ (fun j hj hjm => by
        rw [hbit j]
        by_cases h : j = k
        · simp [h]
        · rw [hones j (by omega)]; rfl) (fun j hj => by rw [hbit, h2 j hj]; simp; omega) (by omega)]
      simp only [List.map_cons, List.foldl_cons]
      congr 3
      apply List.filter_congr
      intro j hj
      simp only [List.mem_range'_1] at hj
      rw [hbit j]
      simp [show j ≠ k by omega]

theorem eachBitLoop_spec {w : Nat} {σ : Type} (f : σ → Nat × Bool → σ) (e : BitVec w) (idx : Nat) :
    ∀ (k i : Nat) (st : σ), i + k ≤ w → eachBitLoop f e idx k i st =
      .ok (((List.range' i k).map (fun j => (idx + j, e.getLsbD j))).foldl f st) := by
  intro k
  induction k with
  | zero => intro i st _; simp [eachBitLoop]
  | succ k ih =>
    intro i st h
    simp only [eachBitLoop, cshl_ok (show i < w by omega), Outcome.ok_bind, and_one_shl (show i < w by omega)]
    rw [ih (i + 1) _ (by omega), List.range'_succ]
    rfl

/-- The calls made by `for_each<Spec>` on the first `n` of the positions with contents `b`. -/
def Spec.calls (sp : Spec) (n : Nat) (b : Nat → Bool) : List (Nat × Bool) :=
  match sp with
  | .setBit => ((List.range n).filter b).map (fun i => (i, true))
  | .unsetBit => ((List.range n).filter (fun i => !(b i))).map (fun i => (i, false))
  | .bit => (List.range n).map (fun i => (i, b i))

theorem calls_add (sp : Spec) (m n : Nat) (b : Nat → Bool) :
    sp.calls (m + n) b = sp.calls m b ++ (sp.calls n (fun i => b (m + i))).map (fun c => (m + c.1, c.2)) := by
  cases sp
  · show (positions (m + n) b).map _ = (positions m b).map _ ++ List.map _ ((positions n _).map _)
    rw [positions_add, List.map_append, List.map_map, List.map_map]; rfl
  · show (positions (m + n) _).map _ = (positions m _).map _ ++ List.map _ ((positions n _).map _)
    rw [positions_add, List.map_append, List.map_map, List.map_map]; rfl
  · simp only [Spec.calls, List.range_add, List.map_append, List.map_map]; rfl

theorem calls_congr (sp : Spec) {n : Nat} {b c : Nat → Bool} (h : ∀ i, i < n → b i = c i) :
    sp.calls n b = sp.calls n c := by
  cases sp
  · show (positions n b).map _ = (positions n c).map _
    rw [positions_congr h]
  · show (positions n _).map _ = (positions n _).map _
    rw [positions_congr (fun i hi => by rw [h i hi])]
  · exact List.map_congr_left (fun i hi => by rw [h i (by simpa using hi)])

theorem fn_spec {w : Nat} (hw : StdWidth w) {σ : Type} (sp : Spec) {m : Nat} {mask e : BitVec w}
    (hm : ∀ k, k < w → mask.getLsbD k = decide (k < m)) (hmw : m ≤ w)
    (he : ∀ j, m ≤ j → e.getLsbD j = false) (idx : Nat) (f : σ → Nat × Bool → σ) (st : σ) :
    sp.fn mask e idx f st =
      .ok (((sp.calls m e.getLsbD).map (fun c => (idx + c.1, c.2))).foldl f st) := by
  cases sp
  · simp only [Spec.fn]
    rw [setBitLoop_spec hw _ idx w 0 e st (by intro j hj; omega) (by omega)]
    congr 1
    have : (List.range' 0 (w - 0)).filter e.getLsbD = positions m e.getLsbD := by
      rw [Nat.sub_zero, ← List.range_eq_range']
      exact positions_extend hmw (fun i h1 _ => he i h1)
    rw [this, List.foldl_map]
    show _ = (List.map _ ((positions m _).map _)).foldl f st
    rw [List.map_map, List.foldl_map]
    rfl
  · simp only [Spec.fn]
    rw [unsetBitLoop_spec hw _ idx m hm hmw w 0 e st (by intro j hj; omega) he (by omega)]
    congr 1
    rw [Nat.sub_zero, ← List.range_eq_range', List.foldl_map]
    simp only [Spec.calls, List.map_map]
    rw [List.foldl_map]
    rfl
  · simp only [Spec.fn]
    have hpc : popcount mask = m := by
      rw [popcount_positions hw, positions_congr hm, positions_extend hmw (by intro i h _; simp; omega),
        positions, List.filter_eq_self.mpr (by intro i hi; simpa using hi), List.length_range]
    rw [hpc, eachBitLoop_spec f e idx m 0 st (by omega), ← List.range_eq_range']
    simp only [Spec.calls, List.map_map]
    rfl

theorem forEachLoop_spec {w : Nat} (hw : StdWidth w) {σ : Type} (sp : Spec) (f : σ → Nat × Bool → σ)
    {s : Words w} : ∀ (k i idx : Nat) (st : σ), i + k ≤ s.length →
    forEachLoop sp f s k i idx st = .ok (idx + k * w,
      ((sp.calls (k * w) (fun j => bits s (i * w + j))).map (fun c => (idx + c.1, c.2))).foldl f st) := by
  intro k
  induction k with
  | zero =>
    intro i idx st _
    cases sp <;> simp [forEachLoop, Spec.calls]
  | succ k ih =>
    intro i idx st h
    simp only [forEachLoop, arrGet_wd (show i < s.length by omega), Outcome.ok_bind]
    rw [fn_spec hw sp (m := w) (by intro k hk; simp [hk]) (by omega)
      (fun j hj => BitVec.getLsbD_of_ge _ _ hj)]
    simp only [Outcome.ok_bind]
    rw [ih (i + 1) (idx + w) _ (by omega), show (k + 1) * w = w + k * w by rw [Nat.add_mul, Nat.one_mul, Nat.add_comm], calls_add,
      List.map_append, List.foldl_append, List.map_map]
    have e1 : sp.calls w (fun j => bits s (i * w + j)) = sp.calls w (wd s i).getLsbD :=
      calls_congr sp (fun j hj => bits_mk hj)
    have e2 : (fun j => bits s ((i + 1) * w + j)) = (fun j => bits s (i * w + (w + j))) := by
      funext j; rw [Nat.add_mul, Nat.one_mul, Nat.add_assoc]
    rw [e1, e2]
    congr 2
    · omega
    · congr 1
      apply List.map_congr_left
      intro c _
      simp [Nat.add_assoc]

/-- **C11, partial.** For a non-empty capacity and arbitrary contents, `for_each<Spec>(f, bs)` is
defined and acts as `f` applied in turn to: the set positions below `N`, ascending (`set_bit`), the
unset positions below `N`, ascending (`unset_bit`), every position below `N` with its value (`bit`).
Missing: `N = 0`, where the call is undefined (`C11_bitset_for_each_empty_undefined`). -/
theorem C11_bitset_for_each_partial {w : Nat} (hw : StdWidth w) {N : Nat} (hN : 0 < N) {s : Words w}
    (hs : s.length = storageSize w N) {σ : Type} (sp : Spec) (f : σ → Nat × Bool → σ) (st : σ) :
    ∃ b : Nat → Bool, (∀ i, i < N → get s i = .ok (b i)) ∧
      forEach sp N f s st = .ok ((sp.calls N b).foldl f st) := by
  have hw0 := StdWidth.pos hw
  have hB := storage_bounds hw0 N
  have hp := storageSize_pos hw0 hN
  have hsz : (storageSize w N - 1) * w = storageSize w N * w - w := by rw [Nat.sub_mul, Nat.one_mul]
  have hle2 : w ≤ storageSize w N * w := Nat.le_mul_of_pos_left w hp
  refine ⟨bits s, fun i hi => get_bits hw0 (by rw [hs]; omega), ?_⟩
  obtain ⟨h, e, hbits⟩ := highbits_spec hw0 hN hs
  unfold forEach
  rw [szDec_of_pos hp, forEachLoop_spec hw sp f _ _ _ _ (by omega)]
  simp only [Outcome.ok_bind, e]
  have hlm : ∀ k, k < w → (lastmask w N).getLsbD k = decide ((storageSize w N - 1) * w + k < N) :=
    fun k hk => lastmask_spec hw0 hN hk
  generalize (storageSize w N - 1) * w = c at *
  obtain ⟨d, rfl⟩ : ∃ d, N = c + d := ⟨N - c, by omega⟩
  rw [fn_spec hw sp (m := d) (by intro k hk; rw [hlm k hk, decide_eq_decide]; omega) (by omega) (by
    intro j hj
    rcases Nat.lt_or_ge j w with h1 | h1
    · rw [hbits j h1]; simp; omega
    · exact BitVec.getLsbD_of_ge _ _ h1)]
  rw [calls_add, List.foldl_append]
  have e1 : sp.calls d h.getLsbD = sp.calls d (fun i => bits s (c + i)) :=
    calls_congr sp (fun i hi => by rw [hbits i (by omega)]; simp [hi])
  rw [e1]
  simp

/-- **C11 is false for `bitset<0>`**: traversal is undefined behaviour. -/
theorem C11_bitset_for_each_empty_undefined {w : Nat} (hw : 0 < w) {σ : Type} (sp : Spec)
    (f : σ → Nat × Bool → σ) (st : σ) : forEach sp 0 f (empty w 0) st = .ub := by
  unfold forEach
  rw [storageSize_zero hw]
  obtain ⟨k, hk⟩ : ∃ k, szDec 0 = k + 1 := ⟨szDec 0 - 1, by unfold szDec; simp⟩
  rw [hk]
  have : arrGet (empty w 0) 0 = .ub := by
    unfold arrGet empty; rw [storageSize_zero hw]; rfl
  simp [forEachLoop, this]

/-- The calls, spelled out: strictly increasing positions, and exactly the set ones. -/
theorem C11_bitset_for_each_order (N : Nat) (b : Nat → Bool) :
    (Spec.setBit.calls N b).map (·.1) = (List.range N).filter b ∧
    (Spec.unsetBit.calls N b).map (·.1) = (List.range N).filter (fun i => !(b i)) ∧
    ((Spec.setBit.calls N b).map (·.1)).Pairwise (· < ·) ∧
    ((Spec.unsetBit.calls N b).map (·.1)).Pairwise (· < ·) := by
  have h1 : (Spec.setBit.calls N b).map (·.1) = (List.range N).filter b := by
    simp [Spec.calls, List.map_map, Function.comp_def]
  have h2 : (Spec.unsetBit.calls N b).map (·.1) = (List.range N).filter (fun i => !(b i)) := by
    simp [Spec.calls, List.map_map, Function.comp_def]
  refine ⟨h1, h2, ?_, ?_⟩
  · rw [h1]; exact List.Pairwise.filter _ List.pairwise_lt_range
  · rw [h2]; exact List.Pairwise.filter _ List.pairwise_lt_range

example : forEach .unsetBit 11 (fun st c => st ++ [c.1]) [0xfd#8, 0xf9#8] [] = .ok [1, 9, 10] := by decide

/-! ## transform_reduce -/

theorem bits_tail {w : Nat} (hw : 0 < w) {e : BitVec w} {s : Words w} (i : Nat) :
    bits (e :: s) (w + i) = bits s i := by
  rw [bits_cons hw, if_neg (by omega), Nat.add_sub_cancel_left]

theorem transformReduceLoop_spec {w : Nat} (hw : StdWidth w) {τ ρ : Type} (f : Nat → τ) (r : ρ → τ → ρ) :
    ∀ (s : Words w) (i : Nat) (acc : ρ), transformReduceLoop f r s i acc =
      .ok ((positions (s.length * w) (bits s)).foldl (fun a p => r a (f (i + p))) acc) := by
  have hw0 := StdWidth.pos hw
  intro s
  induction s with
  | nil => intro i acc; simp [transformReduceLoop, positions]
  | cons e es ih =>
    intro i acc
    simp only [transformReduceLoop]
    rw [setBitLoop_spec hw _ i w 0 e acc (by intro j hj; omega) (by omega)]
    simp only [Outcome.ok_bind]
    rw [ih, List.length_cons, show (es.length + 1) * w = w + es.length * w by
      rw [Nat.add_mul, Nat.one_mul, Nat.add_comm], positions_add, List.foldl_append,
      Nat.sub_zero, ← List.range_eq_range']
    have e1 : positions w (bits (e :: es)) = (List.range w).filter e.getLsbD :=
      positions_congr (fun j hj => by rw [bits_cons hw0, if_pos hj])
    have e2 : (fun j => bits (e :: es) (w + j)) = bits es := by
      funext j; exact bits_tail hw0 j
    rw [e1, e2, List.foldl_map, List.foldl_map]
    congr 2
    funext a p
    rw [Nat.add_assoc]

/-- **C12, exact form.** `transform_reduce` folds over all stored positions, also those at or above
`N`. -/
theorem C12_bitset_transform_reduce_stored {w : Nat} (hw : StdWidth w) {τ ρ : Type} (f : Nat → τ)
    (r : ρ → τ → ρ) (init : ρ) (s : Words w) :
    transformReduce f r init s =
      .ok (((List.range (s.length * w)).filter (bits s)).foldl (fun a p => r a (f p)) init) := by
  unfold transformReduce
  rw [transformReduceLoop_spec hw]
  simp [positions]

/-- **C12, partial.** If nothing is stored at or above `N` — in particular after any valid tidy
history — the result is the left fold over the set positions below `N` in ascending order. -/
theorem C12_bitset_transform_reduce_partial {w : Nat} (hw : StdWidth w) {N : Nat} {s : Words w}
    (hs : s.length = storageSize w N) (hclean : ∀ j, N ≤ j → j < storageSize w N * w → get s j = .ok false)
    {τ ρ : Type} (f : Nat → τ) (r : ρ → τ → ρ) (init : ρ) :
    transformReduce f r init s =
      .ok (((List.range N).filter (fun i => get s i == .ok true)).foldl (fun a p => r a (f p)) init) := by
  have hw0 := StdWidth.pos hw
  have hB := storage_bounds hw0 N
  rw [C12_bitset_transform_reduce_stored hw]
  have e1 : (List.range (s.length * w)).filter (bits s) = positions N (bits s) := by
    rw [hs]
    exact positions_extend hB.1 (fun i h1 h2 => by
      have := hclean i h1 h2
      rw [get_bits hw0 (by rw [hs]; exact h2)] at this
      simpa using this)
  have e2 : (List.range N).filter (fun i => get s i == .ok true) = positions N (bits s) := by
    apply List.filter_congr
    intro i hi
    rw [get_bits hw0 (by rw [hs]; simp at hi; omega)]
    cases bits s i <;> rfl
  rw [e1, e2]

/-- Tidy histories meet the hypothesis of `C12_bitset_transform_reduce_partial` and of
`C13_bitset_lowest_unset_partial`. -/
theorem C12_tidy_histories_clean {w : Nat} (hw : StdWidth w) {N : Nat} (x : Expr) (hx : x.Valid w N)
    (ht : x.tidy w N = true) :
    ∃ s, x.run w N = .ok s ∧ s.length = storageSize w N ∧
      ∀ j, N ≤ j → j < storageSize w N * w → get s j = .ok false := by
  have hw0 := StdWidth.pos hw
  obtain ⟨s, e, hl, hb⟩ := C09_bitset_storage_exact hw N x hx
  refine ⟨s, e, hl, fun j h1 h2 => ?_⟩
  rw [get_bits hw0 (by rw [hl]; exact h2), hb j h2, tidy_clean hw0 x hx ht j h1 h2]

/-- **C12 is false as stated.** After `bs.set()`, for every capacity that does not fill whole words,
`transform_reduce` that counts its calls reports more than the `N` positions there are. -/
theorem C12_bitset_transform_reduce_violated {w : Nat} (hw : StdWidth w) (N : Nat) (h : N % w ≠ 0) :
    ∃ s, (Expr.setAll .empty).run w N = .ok s ∧ (∀ i, i < N → get s i = .ok true) ∧
      ∃ n, transformReduce (fun _ => 1) (fun a b => a + b) 0 s = .ok n ∧ N < n := by
  have hw0 := StdWidth.pos hw
  have hB := storage_bounds hw0 N
  have hlt : N < storageSize w N * w := by
    rcases Nat.lt_or_ge N (storageSize w N * w) with h1 | h1
    · exact h1
    · have : N = w * storageSize w N := by rw [Nat.mul_comm]; omega
      rw [this, Nat.mul_mod_right] at h; exact absurd rfl h
  have hl : (setAll (empty w N)).length = storageSize w N := by simp [setAll, empty]
  have hall : ∀ i, i < storageSize w N * w → bits (setAll (empty w N)) i = true := by
    intro i hi; exact setAll_bits hw0 (by rwa [length_empty])
  refine ⟨setAll (empty w N), rfl, fun i hi => ?_, storageSize w N * w, ?_, hlt⟩
  · rw [get_bits hw0 (by rw [hl]; omega), hall i (by omega)]
  · rw [C12_bitset_transform_reduce_stored hw, hl, List.filter_eq_self.mpr (by
      intro i hi; exact hall i (by simpa using hi))]
    congr 1
    have : ∀ (l : List Nat) (a : Nat), l.foldl (fun a _ => a + 1) a = a + l.length := by
      intro l
      induction l with
      | nil => intro a; rfl
      | cons x l ih => intro a; simp only [List.foldl_cons, List.length_cons]; rw [ih]; omega
    rw [this, List.length_range, Nat.zero_add]

example : (Expr.setAll .empty).Valid 8 4 := trivial

/-! ## lowest_unset -/

theorem lowestUnsetLoop_spec {w : Nat} (hw : StdWidth w) : ∀ (s : Words w) (i : Nat),
    ∃ k, lowestUnsetLoop s i = .ok (i + k) ∧ k ≤ s.length * w ∧ (∀ j, j < k → bits s j = true) ∧
      (k < s.length * w → bits s k = false) := by
  have hw0 := StdWidth.pos hw
  intro s
  induction s with
  | nil => intro i; exact ⟨0, by simp [lowestUnsetLoop], by simp, by intro j hj; omega, by simp⟩
  | cons e es ih =>
    intro i
    obtain ⟨_, c, ec, hcw, hones, hz⟩ := C07_count_ones hw e
    simp only [lowestUnsetLoop, ec, Outcome.ok_bind, Int.toNat_natCast]
    by_cases h : c = w
    · subst h
      rw [if_neg (by simp)]
      obtain ⟨k, ek, hk, hlow, hz'⟩ := ih (i + c)
      refine ⟨c + k, by rw [ek, Nat.add_assoc], by simp only [List.length_cons, Nat.add_mul]; omega,
        fun j hj => ?_, fun hlt => ?_⟩
      · rw [bits_cons hw0]
        by_cases h1 : j < c
        · rw [if_pos h1]; exact hones j h1
        · rw [if_neg h1]; exact hlow (j - c) (by omega)
      · rw [bits_tail hw0]
        apply hz'
        simp only [List.length_cons, Nat.add_mul] at hlt; omega
    · rw [if_pos h]
      refine ⟨c, rfl, by simp only [List.length_cons, Nat.add_mul]; omega, fun j hj => ?_, fun _ => ?_⟩
      · rw [bits_cons hw0, if_pos (by omega)]; exact hones j hj
      · rw [bits_cons hw0, if_pos (by omega)]; exact hz (by omega)

/-- **C13, partial.** On arbitrary contents `lowest_unset()` is the least clear position below `N` if
there is one, and at least `N` otherwise.  It is exactly `N` otherwise if nothing is stored at or
above `N`.  Missing: that last condition cannot be dropped, `C13_bitset_lowest_unset_violated`. -/
theorem C13_bitset_lowest_unset_partial {w : Nat} (hw : StdWidth w) {N : Nat} {s : Words w}
    (hs : s.length = storageSize w N) :
    ∃ k, lowestUnset s = .ok k ∧ (∀ j, j < k → j < N → get s j = .ok true) ∧
      (k < N → get s k = .ok false) ∧
      ((∀ j, N ≤ j → j < storageSize w N * w → get s j = .ok false) → k ≤ N) := by
  have hw0 := StdWidth.pos hw
  have hB := storage_bounds hw0 N
  obtain ⟨k, ek, hk, hlow, hz⟩ := lowestUnsetLoop_spec hw s 0
  rw [hs] at hk hz
  refine ⟨k, by rw [lowestUnset, ek, Nat.zero_add], fun j hj hN => ?_, fun hkN => ?_, fun hclean => ?_⟩
  · rw [get_bits hw0 (by rw [hs]; omega), hlow j hj]
  · rw [get_bits hw0 (by rw [hs]; omega), hz (by omega)]
  · rcases Nat.lt_or_ge N k with h | h
    · have h1 := hlow N h
      have h2 := hclean N (by omega) (by omega)
      rw [get_bits hw0 (by rw [hs]; omega), h1] at h2
      cases h2
    · exact h

/-- **C13 is false as stated.** For every capacity that does not fill whole words, `bs.set()` and
`bitset(all_bits)` are equal, but `lowest_unset()` answers `N` for one and more than `N` for the
other. -/
theorem C13_bitset_lowest_unset_violated {w : Nat} (hw : StdWidth w) (N : Nat) (h : N % w ≠ 0) :
    ∃ s t, (Expr.setAll .empty).run w N = .ok s ∧ Expr.allBits.run w N = .ok t ∧
      eq N s t = .ok true ∧ lowestUnset t = .ok N ∧ ∃ k, lowestUnset s = .ok k ∧ N < k := by
  have hw0 := StdWidth.pos hw
  have hB := storage_bounds hw0 N
  have hlt : N < storageSize w N * w := by
    rcases Nat.lt_or_ge N (storageSize w N * w) with h1 | h1
    · exact h1
    · have : N = w * storageSize w N := by rw [Nat.mul_comm]; omega
      rw [this, Nat.mul_mod_right] at h; exact absurd rfl h
  obtain ⟨s, es, hls, hbs⟩ := C09_bitset_storage_exact hw N (.setAll .empty) trivial
  obtain ⟨t, et, hlt', hbt⟩ := C09_bitset_storage_exact hw N .allBits trivial
  refine ⟨s, t, es, et, ?_, ?_, ?_⟩
  · refine (C10_bitset_unused_bits_invisible hw hls hlt' fun i hi => ?_).1
    rw [get_bits hw0 (by rw [hls]; omega), get_bits hw0 (by rw [hlt']; omega), hbs i (by omega),
      hbt i (by omega)]
    simp [Expr.stored, hi]
  · obtain ⟨k, ek, hk, hlow, hz⟩ := lowestUnsetLoop_spec hw t 0
    rw [lowestUnset, ek, Nat.zero_add]
    congr 1
    rw [hlt'] at hk hz
    rcases Nat.lt_trichotomy k N with h1 | h1 | h1
    · have := hz (by omega)
      rw [hbt k (by omega)] at this
      simp [Expr.stored, h1] at this
    · exact h1
    · have := hlow N h1
      rw [hbt N hlt] at this
      simp [Expr.stored] at this
  · obtain ⟨k, ek, hk, hlow, hz⟩ := lowestUnsetLoop_spec hw s 0
    refine ⟨k, by rw [lowestUnset, ek, Nat.zero_add], ?_⟩
    rw [hls] at hk hz
    rcases Nat.lt_or_ge k (storageSize w N * w) with h1 | h1
    · have := hz h1
      rw [hbs k h1] at this
      simp [Expr.stored] at this
    · omega

example : lowestUnset [0x37#8] = .ok 3 ∧ lowestUnset [0xff#8] = .ok 8 := by decide

end Verif.Bitset
