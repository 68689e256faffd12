import Verif.Bitset.Live
import Verif.Bitset.PropsVisit
import Mathlib.Tactic.Common

/-!
# Traversing a bitset while it changes (C131)
-/

namespace Verif.Bitset

open Verif.BitOps

/-! ## Specification -/

/-- The memory after some calls. -/
def after {σ : Type} (f : σ → Nat × Bool → σ) (st : σ) (calls : List (Nat × Bool)) : σ := calls.foldl f st

/-- The calls for the positions from `a` to `a + n - 1`, if `b p` is found at position `p`. -/
def Spec.callsFrom (sp : Spec) (a n : Nat) (b : Nat → Bool) : List (Nat × Bool) :=
  (sp.calls n (fun j => b (a + j))).map (fun c => (a + c.1, c.2))

/-! ## Lemmas -/

theorem callsFrom_add (sp : Spec) (a m n : Nat) (b : Nat → Bool) :
    sp.callsFrom a (m + n) b = sp.callsFrom a m b ++ sp.callsFrom (a + m) n b := by
  unfold Spec.callsFrom
  rw [calls_add, List.map_append, List.map_map]
  congr 1
  simp only [Nat.add_assoc]
  rfl

theorem callsFrom_zero (sp : Spec) (n : Nat) (b : Nat → Bool) : sp.callsFrom 0 n b = sp.calls n b := by
  unfold Spec.callsFrom
  simp

theorem calls_bound (sp : Spec) {n : Nat} {b : Nat → Bool} {c : Nat × Bool} (h : c ∈ sp.calls n b) : c.1 < n := by
  cases sp <;> simp only [Spec.calls, List.mem_map, List.mem_filter, List.mem_range] at h <;> grind

theorem callsFrom_bound (sp : Spec) {a n : Nat} {b : Nat → Bool} {c : Nat × Bool} (h : c ∈ sp.callsFrom a n b) :
    a ≤ c.1 ∧ c.1 < a + n := by
  unfold Spec.callsFrom at h
  rw [List.mem_map] at h
  obtain ⟨d, hd, rfl⟩ := h
  have := calls_bound sp hd
  dsimp only
  omega

theorem callsFrom_congr (sp : Spec) {a n : Nat} {b c : Nat → Bool} (h : ∀ p, a ≤ p → p < a + n → b p = c p) :
    sp.callsFrom a n b = sp.callsFrom a n c := by
  unfold Spec.callsFrom
  rw [calls_congr sp (fun i hi => h (a + i) (by omega) (by omega))]

/-- What is found at position `p`: its bit before the first call for a position in the same word or a later one. -/
def found {w : Nat} {σ : Type} (f : σ → Nat × Bool → σ) (view : σ → Words w) (st : σ) (calls : List (Nat × Bool)) (p : Nat) : Bool :=
  bits (view (after f st (calls.takeWhile (fun c => decide (c.1 < p / w * w))))) p

theorem found_same_word {w : Nat} {σ : Type} {f : σ → Nat × Bool → σ} {view : σ → Words w} {st : σ} {calls : List (Nat × Bool)}
    {a p : Nat} (h : ∀ c ∈ calls, a ≤ c.1) (hp : p / w * w ≤ a) : found f view st calls p = bits (view st) p := by
  unfold found
  have : calls.takeWhile (fun c => decide (c.1 < p / w * w)) = [] := by
    cases calls with
    | nil => rfl
    | cons c cs =>
      have := h c (by simp)
      rw [List.takeWhile_cons_of_neg (by simp; omega)]
  rw [this]; rfl

theorem found_later_word {w : Nat} {σ : Type} {f : σ → Nat × Bool → σ} {view : σ → Words w} {st : σ}
    {c1 c2 : List (Nat × Bool)} {a p : Nat} (h : ∀ c ∈ c1, c.1 < a) (hp : a ≤ p / w * w) :
    found f view st (c1 ++ c2) p = found f view (after f st c1) c2 p := by
  unfold found
  rw [List.takeWhile_append_of_pos (by
    intro c hc
    have := h c hc
    simp; omega)]
  unfold after
  rw [List.foldl_append]

theorem word_start {w i p : Nat} (hw : 0 < w) (h1 : i * w ≤ p) (h2 : p < i * w + w) : p / w * w = i * w := by
  have : p / w = i := by
    apply Nat.div_eq_of_lt_le
    · exact h1
    · rw [Nat.add_mul, Nat.one_mul]; exact h2
  rw [this]

theorem word_ge {w i p : Nat} (hw : 0 < w) (h1 : i * w ≤ p) : i * w ≤ p / w * w := by
  apply Nat.mul_le_mul_right
  exact (Nat.le_div_iff_mul_le hw).mpr h1

/-- One more word in front. -/
theorem found_step {w : Nat} (hw : 0 < w) {σ : Type} (sp : Spec) (f : σ → Nat × Bool → σ) (view : σ → Words w) (st : σ) (i n : Nat)
    {c2 : List (Nat × Bool)}
    (h2 : c2 = sp.callsFrom ((i + 1) * w) n (found f view (after f st (sp.callsFrom (i * w) w (bits (view st)))) c2)) :
    let calls := sp.callsFrom (i * w) w (bits (view st)) ++ c2
    calls = sp.callsFrom (i * w) (w + n) (found f view st calls) := by
  intro calls
  have ei : (i + 1) * w = i * w + w := by rw [Nat.add_mul, Nat.one_mul]
  have hb1 : ∀ c ∈ sp.callsFrom (i * w) w (bits (view st)), c.1 < (i + 1) * w := fun c hc => by
    have := callsFrom_bound sp hc; omega
  have hb2 : ∀ c ∈ c2, (i + 1) * w ≤ c.1 := fun c hc => by
    rw [h2] at hc; exact (callsFrom_bound sp hc).1
  have hb : ∀ c ∈ calls, i * w ≤ c.1 := fun c hc => by
    rcases List.mem_append.mp hc with h | h
    · exact (callsFrom_bound sp h).1
    · have := hb2 c h; omega
  rw [callsFrom_add]
  have e1 : sp.callsFrom (i * w) w (found f view st calls) = sp.callsFrom (i * w) w (bits (view st)) :=
    callsFrom_congr sp (fun p hp1 hp2 => found_same_word hb (Nat.le_of_eq (word_start hw hp1 hp2)))
  have e2 : sp.callsFrom (i * w + w) n (found f view st calls) = c2 := by
    rw [← ei]
    conv_rhs => rw [h2]
    exact callsFrom_congr sp (fun p hp1 _ => found_later_word hb1 (word_ge hw hp1))
  rw [e1, e2]

theorem after_length {w : Nat} {σ : Type} {f : σ → Nat × Bool → σ} {view : σ → Words w} {L : Nat}
    (hv : ∀ st c, (view st).length = L → (view (f st c)).length = L) (calls : List (Nat × Bool)) :
    ∀ st, (view st).length = L → (view (after f st calls)).length = L := by
  induction calls with
  | nil => intro st h; exact h
  | cons c cs ih => intro st h; exact ih _ (hv st c h)

theorem forEachLiveLoop_spec {w : Nat} (hw : StdWidth w) {σ : Type} (sp : Spec) (f : σ → Nat × Bool → σ) (view : σ → Words w)
    {L : Nat} (hv : ∀ st c, (view st).length = L → (view (f st c)).length = L) :
    ∀ (k i : Nat) (st : σ), (view st).length = L → i + k ≤ L →
    ∃ calls, forEachLiveLoop sp f view k i (i * w) st = .ok ((i + k) * w, after f st calls) ∧
      calls = sp.callsFrom (i * w) (k * w) (found f view st calls) := by
  have hw0 := StdWidth.pos hw
  intro k
  induction k with
  | zero =>
    intro i st _ _
    refine ⟨[], by simp [forEachLiveLoop, after], ?_⟩
    cases sp <;> simp [Spec.callsFrom, Spec.calls]
  | succ k ih =>
    intro i st hl h
    simp only [forEachLiveLoop]
    rw [arrGet_wd (by rw [hl]; omega)]
    simp only [Outcome.ok_bind]
    rw [fn_spec hw sp (m := w) (by intro k hk; simp [hk]) (by omega)
      (fun j hj => BitVec.getLsbD_of_ge _ _ hj)]
    simp only [Outcome.ok_bind]
    have e1 : (sp.calls w (wd (view st) i).getLsbD).map (fun c => (i * w + c.1, c.2)) =
        sp.callsFrom (i * w) w (bits (view st)) := by
      unfold Spec.callsFrom
      rw [calls_congr sp (fun j hj => (bits_mk hj).symm)]
    rw [e1, show i * w + w = (i + 1) * w by rw [Nat.add_mul, Nat.one_mul]]
    obtain ⟨c2, h1, h2⟩ := ih (i + 1) (after f st (sp.callsFrom (i * w) w (bits (view st)))) (after_length hv _ _ hl) (by omega)
    refine ⟨sp.callsFrom (i * w) w (bits (view st)) ++ c2, ?_, ?_⟩
    · unfold after at h1 ⊢
      rw [h1, List.foldl_append, show i + 1 + k = i + (k + 1) by omega]
    · have := found_step hw0 sp f view st i (k * w) h2
      rwa [show (k + 1) * w = w + k * w by rw [Nat.add_mul, Nat.one_mul, Nat.add_comm]]

/-- Calls in front of the last ones. -/
theorem found_append {w : Nat} (hw : 0 < w) {σ : Type} (sp : Spec) (f : σ → Nat × Bool → σ) (view : σ → Words w) (st : σ) (k d : Nat)
    (hd : d ≤ w) {c1 : List (Nat × Bool)} (h1 : c1 = sp.callsFrom 0 (k * w) (found f view st c1)) :
    let calls := c1 ++ sp.callsFrom (k * w) d (bits (view (after f st c1)))
    calls = sp.callsFrom 0 (k * w + d) (found f view st calls) := by
  intro calls
  have hb1 : ∀ c ∈ c1, c.1 < k * w := fun c hc => by
    rw [h1] at hc; have := (callsFrom_bound sp hc).2; omega
  have hb2 : ∀ c ∈ sp.callsFrom (k * w) d (bits (view (after f st c1))), k * w ≤ c.1 := fun c hc => (callsFrom_bound sp hc).1
  rw [callsFrom_add, Nat.zero_add]
  have e1 : sp.callsFrom 0 (k * w) (found f view st calls) = c1 := by
    conv_rhs => rw [h1]
    refine callsFrom_congr sp (fun p _ hp => ?_)
    unfold found
    congr 3
    -- the calls behind are not before the word of `p`
    have hlt : p / w * w ≤ k * w := Nat.le_trans (Nat.div_mul_le_self p w) (by omega)
    have hnil : ∀ l : List (Nat × Bool), (∀ c ∈ l, k * w ≤ c.1) →
        l.takeWhile (fun c => decide (c.1 < p / w * w)) = [] := by
      intro l hl
      cases l with
      | nil => rfl
      | cons c cs => rw [List.takeWhile_cons_of_neg (by have := hl c (by simp); simp; omega)]
    show List.takeWhile _ (c1 ++ _) = _
    rw [List.takeWhile_append]
    split
    · rename_i h
      rw [hnil _ hb2, List.append_nil]
      exact ((List.takeWhile_sublist _).eq_of_length h).symm
    · rfl
  have e2 : sp.callsFrom (k * w) d (found f view st calls) = sp.callsFrom (k * w) d (bits (view (after f st c1))) := by
    refine callsFrom_congr sp (fun p hp1 hp2 => ?_)
    rw [found_later_word hb1 (word_ge hw hp1)]
    exact found_same_word hb2 (Nat.le_of_eq (word_start hw hp1 (by omega)))
  rw [e1, e2]

theorem takeWhile_take {α : Type} (q : α → Bool) (l : List α) : l.takeWhile q = l.take (l.takeWhile q).length := by
  induction l with
  | nil => rfl
  | cons a l ih =>
    rw [List.takeWhile_cons]
    split
    · rw [List.length_cons, List.take_succ_cons, ← ih]
    · rfl

theorem mem_takeWhile {α : Type} {q : α → Bool} {l : List α} {c : α} (h : c ∈ l.takeWhile q) : q c = true := by
  induction l with
  | nil => simp at h
  | cons a l ih =>
    rw [List.takeWhile_cons] at h
    split at h
    · rcases List.mem_cons.mp h with rfl | h
      · assumption
      · exact ih h
    · simp at h

theorem takeWhile_le {α : Type} {q : α → Bool} {l : List α} {k : Nat} {c : α} (h : l[k]? = some c) (hq : q c = false) :
    (l.takeWhile q).length ≤ k := by
  induction l generalizing k with
  | nil => simp at h
  | cons a l ih =>
    rw [List.takeWhile_cons]
    split
    · rename_i ha
      cases k with
      | zero => simp at h; subst h; rw [ha] at hq; cases hq
      | succ k => simp at h; have := ih h; simp; omega
    · simp

/-- Whether a traversal calls for bits of this value. -/
def Spec.selects : Spec → Bool → Bool
  | .setBit, b => b
  | .unsetBit, b => !b
  | .bit, _ => true

theorem mem_calls (sp : Spec) {n : Nat} {b : Nat → Bool} {c : Nat × Bool} :
    c ∈ sp.calls n b ↔ c.1 < n ∧ c.2 = b c.1 ∧ sp.selects c.2 = true := by
  obtain ⟨p, v⟩ := c
  cases sp <;> simp only [Spec.calls, Spec.selects, List.mem_map, List.mem_filter, List.mem_range, Prod.mk.injEq]
  · constructor
    · rintro ⟨a, ⟨h1, h2⟩, rfl, rfl⟩; exact ⟨h1, h2.symm, rfl⟩
    · rintro ⟨h1, h2, h3⟩; exact ⟨p, ⟨h1, by rw [← h2, h3]⟩, rfl, h3.symm⟩
  · constructor
    · rintro ⟨a, ⟨h1, h2⟩, rfl, rfl⟩; exact ⟨h1, by simpa using h2, rfl⟩
    · rintro ⟨h1, h2, h3⟩; exact ⟨p, ⟨h1, by rw [← h2, h3]⟩, rfl, by simpa using h3⟩
  · constructor
    · rintro ⟨a, h1, rfl, rfl⟩; exact ⟨h1, rfl, trivial⟩
    · rintro ⟨h1, h2, -⟩; exact ⟨p, h1, rfl, h2.symm⟩

theorem calls_ascending (sp : Spec) (n : Nat) (b : Nat → Bool) : ((sp.calls n b).map (·.1)).Pairwise (· < ·) := by
  cases sp
  · simp only [Spec.calls, List.map_map, Function.comp_def, List.map_id']
    exact List.Pairwise.filter _ List.pairwise_lt_range
  · simp only [Spec.calls, List.map_map, Function.comp_def, List.map_id']
    exact List.Pairwise.filter _ List.pairwise_lt_range
  · simp only [Spec.calls, List.map_map, Function.comp_def, List.map_id']
    exact List.pairwise_lt_range

/-! ## Theorems -/

/-- **C131, what is visited, exactly.** For every callback, also one that changes the bitset, `for_each` ends; it calls for the positions
in ascending order, each found as it was before the first call for a position in the same storage word or a later one. -/
theorem C131_for_each_exact {w : Nat} (hw : StdWidth w) {N : Nat} (hN : 0 < N) {σ : Type} (sp : Spec) (f : σ → Nat × Bool → σ)
    (view : σ → Words w) (hv : ∀ st c, (view st).length = storageSize w N → (view (f st c)).length = storageSize w N)
    (st : σ) (hl : (view st).length = storageSize w N) :
    ∃ calls, forEachLive sp N f view st = .ok (after f st calls) ∧ calls = sp.calls N (found f view st calls) := by
  have hw0 := StdWidth.pos hw
  have hB := storage_bounds hw0 N
  have hp := storageSize_pos hw0 hN
  have hsz : (storageSize w N - 1) * w = storageSize w N * w - w := by rw [Nat.sub_mul, Nat.one_mul]
  have hle2 : w ≤ storageSize w N * w := Nat.le_mul_of_pos_left w hp
  obtain ⟨c1, h1, h2⟩ := forEachLiveLoop_spec hw sp f view hv (storageSize w N - 1) 0 st hl (by omega)
  rw [Nat.zero_mul, Nat.zero_add] at h1
  rw [Nat.zero_mul] at h2
  obtain ⟨h, e, hbits⟩ := highbits_spec hw0 hN (after_length hv c1 st hl)
  refine ⟨c1 ++ sp.callsFrom ((storageSize w N - 1) * w) (N - (storageSize w N - 1) * w) (bits (view (after f st c1))), ?_, ?_⟩
  · unfold forEachLive
    rw [szDec_of_pos hp, h1]
    simp only [Outcome.ok_bind, e]
    have hlm : ∀ k, k < w → (lastmask w N).getLsbD k = decide ((storageSize w N - 1) * w + k < N) :=
      fun k hk => lastmask_spec hw0 hN hk
    generalize (storageSize w N - 1) * w = c at *
    obtain ⟨d, rfl⟩ : ∃ d, N = c + d := ⟨N - c, by omega⟩
    rw [fn_spec hw sp (m := d) (by intro k hk; rw [hlm k hk, decide_eq_decide]; omega) (by omega) (by
      intro j hj
      rcases Nat.lt_or_ge j w with h1 | h1
      · rw [hbits j h1]; simp; omega
      · exact BitVec.getLsbD_of_ge _ _ h1)]
    have e1 : sp.calls d h.getLsbD = sp.calls d (fun i => bits (view (after f st c1)) (c + i)) :=
      calls_congr sp (fun i hi => by rw [hbits i (by omega)]; simp [hi])
    rw [e1]
    unfold after
    rw [List.foldl_append, show c + d - c = d by omega]
    rfl
  · have := found_append hw0 sp f view st (storageSize w N - 1) (N - (storageSize w N - 1) * w) (by omega) h2
    rw [← callsFrom_zero]
    rwa [show (storageSize w N - 1) * w + (N - (storageSize w N - 1) * w) = N by omega] at this

/-- **C131, for every callback.** Whatever the callback does to the bitset, `for_each` ends; it calls for positions below `N` in ascending
order, none twice; a position it calls for had that value at the beginning or after some call before; and a position whose bit stays the
same until the traversal is past it is called for exactly if that value is asked for. -/
theorem C131_for_each {w : Nat} (hw : StdWidth w) {N : Nat} (hN : 0 < N) {σ : Type} (sp : Spec) (f : σ → Nat × Bool → σ)
    (view : σ → Words w) (hv : ∀ st c, (view st).length = storageSize w N → (view (f st c)).length = storageSize w N)
    (st : σ) (hl : (view st).length = storageSize w N) :
    ∃ calls : List (Nat × Bool), forEachLive sp N f view st = .ok (calls.foldl f st) ∧
      (calls.map (·.1)).Pairwise (· < ·) ∧ (∀ c ∈ calls, c.1 < N ∧ sp.selects c.2 = true) ∧
      (∀ k c, calls[k]? = some c → ∃ j, j ≤ k ∧ get (view ((calls.take j).foldl f st)) c.1 = .ok c.2) ∧
      (∀ p b, p < N →
        (∀ j, j ≤ calls.length → (∀ c ∈ calls.take j, c.1 < p) → get (view ((calls.take j).foldl f st)) p = .ok b) →
        ((∃ c ∈ calls, c.1 = p) ↔ sp.selects b = true) ∧ (sp.selects b = true → (p, b) ∈ calls)) := by
  have hw0 := StdWidth.pos hw
  have hB := storage_bounds hw0 N
  obtain ⟨calls, h1, h2⟩ := C131_for_each_exact hw hN sp f view hv st hl
  have hget : ∀ (l : List (Nat × Bool)) (p : Nat), p < N → get (view (l.foldl f st)) p = .ok (bits (view (after f st l)) p) :=
    fun l p hp => get_bits hw0 (by
      have := after_length hv l st hl
      unfold after at this
      rw [this]; omega)
  have hmem : ∀ c, c ∈ calls ↔ c.1 < N ∧ c.2 = found f view st calls c.1 ∧ sp.selects c.2 = true := fun c => by
    conv_lhs => rw [h2]
    exact mem_calls sp
  have hdiv : ∀ p, p / w * w ≤ p := fun p => Nat.div_mul_le_self p w
  refine ⟨calls, h1, ?_, fun c hc => ⟨((hmem c).mp hc).1, ((hmem c).mp hc).2.2⟩, fun k c hk => ?_, fun p b hp hb => ?_⟩
  · rw [h2]; exact calls_ascending sp N _
  · have hc : c ∈ calls := List.mem_of_getElem? hk
    obtain ⟨hcN, hcv, -⟩ := (hmem c).mp hc
    refine ⟨(calls.takeWhile (fun d => decide (d.1 < c.1 / w * w))).length, takeWhile_le hk (by simp; exact hdiv c.1), ?_⟩
    rw [hget _ _ hcN, hcv, ← takeWhile_take]
    rfl
  · have hf : found f view st calls p = b := by
      have h3 := hb (calls.takeWhile (fun d => decide (d.1 < p / w * w))).length (List.Sublist.length_le (List.takeWhile_sublist _)) (by
        intro c hc
        rw [← takeWhile_take] at hc
        have := mem_takeWhile hc
        have h4 := hdiv p
        simp at this; omega)
      rw [hget _ _ hp, ← takeWhile_take] at h3
      exact Outcome.ok.inj h3
    refine ⟨⟨?_, fun h => ⟨(p, b), (hmem _).mpr ⟨hp, hf.symm, h⟩, rfl⟩⟩, fun h => (hmem _).mpr ⟨hp, hf.symm, h⟩⟩
    rintro ⟨c, hc, rfl⟩
    obtain ⟨-, h4, h5⟩ := (hmem c).mp hc
    rw [h4, hf] at h5
    exact h5

/-- **C131, changes behind.** If the callback changes no bit above the position it is called for — it may reset that one — then
`for_each` calls for the bits as they were at the beginning. -/
theorem C131_for_each_behind {w : Nat} (hw : StdWidth w) {N : Nat} (hN : 0 < N) {σ : Type} (sp : Spec) (f : σ → Nat × Bool → σ)
    (view : σ → Words w) (hv : ∀ st c, (view st).length = storageSize w N → (view (f st c)).length = storageSize w N)
    (hf : ∀ st c p, (view st).length = storageSize w N → c.1 < p → p < N → get (view (f st c)) p = get (view st) p)
    (st : σ) (hl : (view st).length = storageSize w N) :
    ∃ b : Nat → Bool, (∀ i, i < N → get (view st) i = .ok (b i)) ∧
      forEachLive sp N f view st = .ok ((sp.calls N b).foldl f st) := by
  have hw0 := StdWidth.pos hw
  have hB := storage_bounds hw0 N
  obtain ⟨calls, h1, h2⟩ := C131_for_each_exact hw hN sp f view hv st hl
  refine ⟨bits (view st), fun i hi => get_bits hw0 (by rw [hl]; omega), ?_⟩
  have key : ∀ (l : List (Nat × Bool)) (st : σ) (p : Nat), (view st).length = storageSize w N → p < N → (∀ c ∈ l, c.1 < p) →
      bits (view (after f st l)) p = bits (view st) p := by
    intro l
    induction l with
    | nil => intro st p _ _ _; rfl
    | cons c cs ih =>
      intro st p hl hp hc
      have h3 := ih (f st c) p (hv st c hl) hp (fun d hd => hc d (by simp [hd]))
      show bits (view (after f (f st c) cs)) p = _
      rw [h3]
      have h4 := hf st c p hl (hc c (by simp)) hp
      rw [get_bits hw0 (by rw [hv st c hl]; omega), get_bits hw0 (by rw [hl]; omega)] at h4
      exact Outcome.ok.inj h4
  have : calls = sp.calls N (bits (view st)) := by
    conv_lhs => rw [h2]
    refine calls_congr sp (fun p hp => key _ st p hl hp (fun c hc => ?_))
    have := mem_takeWhile hc
    have h4 := Nat.div_mul_le_self p w
    simp at this; omega
  rw [h1, this]; rfl

/-- **C131, one word.** A bitset that fits one storage word is traversed as it was at the beginning, whatever the callback does. -/
theorem C131_for_each_one_word {w : Nat} (hw : StdWidth w) {N : Nat} (hN : 0 < N) (hNw : N ≤ w) {σ : Type} (sp : Spec)
    (f : σ → Nat × Bool → σ) (view : σ → Words w)
    (hv : ∀ st c, (view st).length = storageSize w N → (view (f st c)).length = storageSize w N)
    (st : σ) (hl : (view st).length = storageSize w N) :
    ∃ b : Nat → Bool, (∀ i, i < N → get (view st) i = .ok (b i)) ∧
      forEachLive sp N f view st = .ok ((sp.calls N b).foldl f st) := by
  have hw0 := StdWidth.pos hw
  have hB := storage_bounds hw0 N
  obtain ⟨calls, h1, h2⟩ := C131_for_each_exact hw hN sp f view hv st hl
  refine ⟨bits (view st), fun i hi => get_bits hw0 (by rw [hl]; omega), ?_⟩
  have : calls = sp.calls N (bits (view st)) := by
    conv_lhs => rw [h2]
    refine calls_congr sp (fun p hp => found_same_word (a := 0) (fun c _ => Nat.zero_le _) ?_)
    rw [Nat.div_eq_of_lt (by omega), Nat.zero_mul]
    exact Nat.le_refl 0
  rw [h1, this]; rfl

/-- The result of a call that is defined. -/
def result {α : Type} (o : Outcome α) (a : α) : α := match o with
  | .ok b => b
  | _ => a

/-- A callback that resets the position it is called for, and then does something else. -/
def resetAnd {w : Nat} {τ : Type} (g : τ → Nat → τ) (st : Words w × τ) (c : Nat × Bool) : Words w × τ :=
  (result (reset st.1 c.1) st.1, g st.2 c.1)

/-- **C131, draining a bitset.** A traversal of the set bits that resets each of them when it comes to it does for each bit set at the
beginning what it should, in ascending order, and leaves the bitset empty. -/
theorem C131_drain {w : Nat} (hw : StdWidth w) {N : Nat} (hN : 0 < N) {s : Words w} (hs : s.length = storageSize w N) {τ : Type}
    (g : τ → Nat → τ) (t : τ) :
    ∃ r, forEachLive .setBit N (resetAnd g) (·.1) (s, t) =
        .ok (r, ((List.range N).filter (fun p => get s p == .ok true)).foldl g t) ∧
      r.length = storageSize w N ∧ ∀ p, p < N → get r p = .ok false := by
  have hw0 := StdWidth.pos hw
  have hB := storage_bounds hw0 N
  have hreset : ∀ (st : Words w × τ) (c : Nat × Bool), st.1.length = storageSize w N →
      (resetAnd g st c).1.length = storageSize w N ∧
      ∀ p, bits (resetAnd g st c).1 p = if p = c.1 ∧ c.1 < storageSize w N * w then false else bits st.1 p := by
    intro st c hl
    unfold resetAnd
    dsimp only
    rcases Nat.lt_or_ge c.1 (storageSize w N * w) with h | h
    · obtain ⟨r, h1, h2, h3⟩ := reset_spec hw0 (s := st.1) (i := c.1) (by rw [hl]; exact h)
      rw [h1]
      refine ⟨by rw [result, h2, hl], fun p => ?_⟩
      rw [result, h3]
      simp [h]
    · have : reset st.1 c.1 = .ub := by
        unfold reset
        have : arrGet st.1 (c.1 / w) = .ub := by
          unfold arrGet
          rw [List.getElem?_eq_none (by rw [hl]; exact (Nat.le_div_iff_mul_le hw0).mpr h)]
        rw [this]; rfl
      rw [this]
      exact ⟨hl, fun p => by rw [if_neg (by omega)]; rfl⟩
  have hv : ∀ (st : Words w × τ) c, st.1.length = storageSize w N → (resetAnd g st c).1.length = storageSize w N :=
    fun st c h => (hreset st c h).1
  obtain ⟨b, h1, h2⟩ := C131_for_each_behind hw hN .setBit (resetAnd g) (·.1) hv (fun st c p hl hc hp => by
    rw [get_bits hw0 (by rw [hv st c hl]; omega), get_bits hw0 (by rw [hl]; omega), (hreset st c hl).2 p, if_neg (by omega)])
    (s, t) hs
  have hb : ∀ p, p < N → b p = bits s p := fun p hp => by
    have h3 := h1 p hp
    rw [get_bits hw0 (by show p < s.length * w; rw [hs]; omega)] at h3
    exact (Outcome.ok.inj h3).symm
  have ecalls : Spec.setBit.calls N b = ((List.range N).filter (fun p => get s p == .ok true)).map (fun p => (p, true)) := by
    show List.map _ _ = _
    congr 1
    apply List.filter_congr
    intro p hp
    have hp : p < N := by simpa using hp
    rw [hb p hp, get_bits hw0 (by rw [hs]; omega)]
    cases bits s p <;> rfl
  rw [ecalls] at h2
  have key : ∀ (l : List Nat) (st : Words w × τ), st.1.length = storageSize w N → (∀ p ∈ l, p < N) →
      let o := (l.map (fun p => (p, true))).foldl (resetAnd g) st
      o.2 = l.foldl g st.2 ∧ o.1.length = storageSize w N ∧
        ∀ p, p < N → bits o.1 p = (bits st.1 p && !(l.contains p)) := by
    intro l
    induction l with
    | nil => intro st hl _; exact ⟨rfl, hl, fun p _ => by simp⟩
    | cons x l ih =>
      intro st hl hx
      obtain ⟨i1, i2, i3⟩ := ih (resetAnd g st (x, true)) (hv _ _ hl) (fun p hp => hx p (by simp [hp]))
      refine ⟨i1, i2, fun p hp => ?_⟩
      have hxN := hx x (by simp)
      show bits (List.foldl (resetAnd g) (resetAnd g st (x, true)) _).1 p = _
      rw [i3 p hp, (hreset st (x, true) hl).2 p]
      by_cases hpx : p = x
      · subst hpx
        rw [if_pos ⟨rfl, by dsimp only; omega⟩]
        simp
      · rw [if_neg (fun h => hpx h.1), List.contains_cons]
        rw [show (p == x) = false by simp [hpx], Bool.false_or]
  obtain ⟨k1, k2, k3⟩ := key ((List.range N).filter (fun p => get s p == .ok true)) (s, t) hs (by
    intro p hp; simp at hp; exact hp.1)
  refine ⟨_, h2.trans (congrArg Outcome.ok (Prod.ext rfl k1)), k2, fun p hp => ?_⟩
  rw [get_bits hw0 (by rw [k2]; omega), k3 p hp]
  congr 1
  rw [Bool.eq_false_iff]
  intro h
  rw [Bool.and_eq_true] at h
  have h4 : (List.contains ((List.range N).filter (fun p => get s p == .ok true)) p) = true := by
    rw [List.contains_iff_mem, List.mem_filter]
    exact ⟨by simpa using hp, by rw [get_bits hw0 (by rw [hs]; omega), h.1]; rfl⟩
  rw [h4] at h
  exact absurd h.2 (by simp)

/-- A callback that sets every bit of the bitset and notes its argument. -/
def setAllAndNote {w : Nat} (st : Words w × List Nat) (c : Nat × Bool) : Words w × List Nat := (setAll st.1, st.2 ++ [c.1])

theorem note_calls {w : Nat} (l : List (Nat × Bool)) : ∀ st : Words w × List Nat,
    (after setAllAndNote st l).2 = st.2 ++ l.map (·.1) := by
  induction l with
  | nil => intro st; simp [after]
  | cons c l ih =>
    intro st
    show (after setAllAndNote (setAllAndNote st c) l).2 = _
    rw [ih]
    simp [setAllAndNote]

theorem note_length {w : Nat} {L : Nat} (st : Words w × List Nat) (c : Nat × Bool) (h : st.1.length = L) :
    (setAllAndNote st c).1.length = L := by simp [setAllAndNote, setAll, h]

theorem note_bits {w : Nat} (hw : 0 < w) {L : Nat} (l : List (Nat × Bool)) : ∀ st : Words w × List Nat, st.1.length = L →
    l ≠ [] ∨ (∀ i, i < L * w → bits st.1 i = true) → ∀ i, i < L * w → bits (after setAllAndNote st l).1 i = true := by
  induction l with
  | nil => intro st _ h; exact h.resolve_left (fun h => h rfl)
  | cons c l ih =>
    intro st hl _
    exact ih (setAllAndNote st c) (note_length st c hl) (.inr (fun i hi => setAll_bits hw (by rw [hl]; exact hi)))

/-- **C131, changes ahead are seen or not, depending on the storage.** A bitset holds just the position 0, and the callback sets every
bit.  Stored in one word it is called for position 0 only; stored in smaller words, also for all the positions in the words that
follow. -/
theorem C131_ahead_violated {w w' : Nat} (hw : StdWidth w) (hw' : StdWidth w') {N : Nat} (h : w < N) (h' : N ≤ w')
    {s : Words w} {s' : Words w'} (hs : Bitset.set (empty w N) 0 true = .ok s) (hs' : Bitset.set (empty w' N) 0 true = .ok s') :
    (∃ m v, forEachLive .setBit N setAllAndNote (·.1) (s, []) = .ok (m, v) ∧ ∀ p, p ∈ v ↔ p = 0 ∨ w ≤ p ∧ p < N) ∧
    ∃ m, forEachLive .setBit N setAllAndNote (·.1) (s', []) = .ok (m, [0]) := by
  have hN : 0 < N := by omega
  have start : ∀ {w : Nat} {s : Words w}, 0 < w → Bitset.set (empty w N) 0 true = .ok s →
      s.length = storageSize w N ∧ ∀ p, bits s p = decide (p = 0) := by
    intro w s hw0 h
    have hB := storage_bounds hw0 N
    obtain ⟨r, h1, h2, h3⟩ := set_spec hw0 (s := empty w N) (i := 0) (by rw [length_empty]; omega) true
    rw [h1] at h
    cases h
    refine ⟨by rw [h2, length_empty], fun p => ?_⟩
    rw [h3]
    by_cases hp : p = 0
    · simp [hp]
    · rw [if_neg hp, bits_empty]; simp [hp]
  constructor
  · have hw0 := StdWidth.pos hw
    have hB := storage_bounds hw0 N
    obtain ⟨hl, hb⟩ := start hw0 hs
    obtain ⟨calls, h1, h2⟩ := C131_for_each_exact hw hN .setBit setAllAndNote (·.1) (fun st c => note_length st c) (s, []) hl
    refine ⟨(after setAllAndNote (s, []) calls).1, (after setAllAndNote (s, []) calls).2, h1, fun p => ?_⟩
    rw [note_calls, List.nil_append]
    have hmem : ∀ c, c ∈ calls ↔ c.1 < N ∧ c.2 = found setAllAndNote (·.1) (s, []) calls c.1 ∧ c.2 = true := fun c => by
      conv_lhs => rw [h2]
      exact mem_calls .setBit
    have hasc : (calls.map (·.1)).Pairwise (· < ·) := by rw [h2]; exact calls_ascending .setBit N _
    have hlow : ∀ p, p < w → found setAllAndNote (·.1) (s, ([] : List Nat)) calls p = decide (p = 0) := fun p hp => by
      rw [found_same_word (a := 0) (fun c _ => Nat.zero_le _) (by rw [Nat.div_eq_of_lt hp]; omega)]
      exact hb p
    have h0 : (0, true) ∈ calls := (hmem _).mpr ⟨hN, by rw [hlow 0 hw0]; rfl, rfl⟩
    have hhigh : ∀ p, w ≤ p → p < N → found setAllAndNote (·.1) (s, ([] : List Nat)) calls p = true := fun p hp hpN => by
      unfold found
      refine note_bits hw0 _ (s, []) hl (.inl ?_) p (by omega)
      have hpos : 0 < p / w * w := Nat.lt_of_lt_of_le (by omega) (word_ge (i := 1) hw0 (by omega))
      cases hc : calls with
      | nil => rw [hc] at h0; simp at h0
      | cons c cs =>
        rw [hc] at h0 hasc
        have : c.1 = 0 := by
          rcases List.mem_cons.mp h0 with h3 | h3
          · rw [← h3]
          · have := (List.pairwise_cons.mp hasc).1 0 (List.mem_map.mpr ⟨_, h3, rfl⟩)
            omega
        rw [List.takeWhile_cons_of_pos (by simp [this, hpos])]
        simp
    constructor
    · intro hp
      obtain ⟨c, hc, rfl⟩ := List.mem_map.mp hp
      obtain ⟨h3, h4, h5⟩ := (hmem c).mp hc
      rcases Nat.lt_or_ge c.1 w with h6 | h6
      · rw [h5, hlow _ h6] at h4
        exact .inl (by simpa using h4.symm)
      · exact .inr ⟨h6, h3⟩
    · rintro (rfl | ⟨h3, h4⟩)
      · exact List.mem_map.mpr ⟨_, h0, rfl⟩
      · exact List.mem_map.mpr ⟨(p, true), (hmem _).mpr ⟨h4, (hhigh p h3 h4).symm, rfl⟩, rfl⟩
  · have hw0 := StdWidth.pos hw'
    have hB := storage_bounds hw0 N
    obtain ⟨hl, hb⟩ := start hw0 hs'
    obtain ⟨b, h1, h2⟩ := C131_for_each_one_word hw' hN h' .setBit setAllAndNote (·.1) (fun st c => note_length st c) (s', []) hl
    have : Spec.setBit.calls N b = [(0, true)] := by
      have e : ∀ i, i < N → b i = decide (i = 0) := fun i hi => by
        have h3 := h1 i hi
        rw [get_bits hw0 (by show i < s'.length * w'; rw [hl]; omega)] at h3
        rw [← Outcome.ok.inj h3]; exact hb i
      rw [calls_congr .setBit e]
      obtain ⟨n, rfl⟩ : ∃ n, N = n + 1 := ⟨N - 1, by omega⟩
      simp [Spec.calls, List.range_succ_eq_map, List.filter_map, Function.comp_def]
    rw [h2, this]
    exact ⟨setAll s', rfl⟩

/-! ### transform_reduce -/

/-- What one call of `f` and `r` does to memory and value. -/
def reduceCall {σ τ ρ : Type} (f : σ → Nat → σ × τ) (r : σ → ρ → τ → σ × ρ) (s : σ × ρ) (c : Nat × Bool) : σ × ρ :=
  r (f s.1 c.1).1 s.2 (f s.1 c.1).2

theorem transformReduceLiveLoop_eq {w : Nat} {σ τ ρ : Type} (f : σ → Nat → σ × τ) (r : σ → ρ → τ → σ × ρ) (view : σ → Words w) :
    ∀ (k j i : Nat) (s : σ × ρ), transformReduceLiveLoop f r view k j i s =
      (do let x ← forEachLiveLoop .setBit (reduceCall f r) (fun s => view s.1) k j i s; return x.2) := by
  intro k
  induction k with
  | zero => intro j i s; rfl
  | succ k ih =>
    intro j i s
    simp only [transformReduceLiveLoop, forEachLiveLoop]
    cases arrGet (view s.1) j with
    | ok e =>
      simp only [Outcome.ok_bind]
      show (do let s ← setBitLoop (fun s p => reduceCall f r s (p, true)) i w e s; _) =
        (do let x ← (do let s ← setBitLoop (fun s p => reduceCall f r s (p, true)) i w e s; _); _)
      cases setBitLoop (fun s p => reduceCall f r s (p, true)) i w e s with
      | ok s => simp only [Outcome.ok_bind]; exact ih _ _ s
      | _ => rfl
    | _ => rfl

/-- **C131, `transform_reduce`.** For all functions, also such that change the bitset, `transform_reduce` ends and folds over ascending
positions: those stored (C12) that were set before the first call for a position in the same storage word or a later one. -/
theorem C131_transform_reduce_exact {w : Nat} (hw : StdWidth w) {N : Nat} {σ τ ρ : Type} (f : σ → Nat → σ × τ)
    (r : σ → ρ → τ → σ × ρ) (view : σ → Words w)
    (hv : ∀ m x c, (view m).length = storageSize w N → (view (reduceCall f r (m, x) c).1).length = storageSize w N)
    (st : σ) (init : ρ) (hl : (view st).length = storageSize w N) :
    ∃ calls, transformReduceLive N f r view st init = .ok (after (reduceCall f r) (st, init) calls) ∧
      calls = Spec.setBit.calls (storageSize w N * w) (found (reduceCall f r) (fun s => view s.1) (st, init) calls) := by
  obtain ⟨calls, h1, h2⟩ := forEachLiveLoop_spec hw .setBit (reduceCall f r) (fun s => view s.1) (L := storageSize w N)
    (fun s c h => hv s.1 s.2 c h) (storageSize w N) 0 (st, init) hl (by omega)
  rw [Nat.zero_mul] at h1 h2
  rw [callsFrom_zero] at h2
  refine ⟨calls, ?_, h2⟩
  unfold transformReduceLive
  rw [transformReduceLiveLoop_eq, h1]
  rfl

/-- **C131, `transform_reduce` with changes behind.** If the functions change no stored bit above the position they are called for,
the result is the left fold over the positions that were set at the beginning. -/
theorem C131_transform_reduce_behind {w : Nat} (hw : StdWidth w) {N : Nat} {σ τ ρ : Type} (f : σ → Nat → σ × τ)
    (r : σ → ρ → τ → σ × ρ) (view : σ → Words w)
    (hv : ∀ m x c, (view m).length = storageSize w N → (view (reduceCall f r (m, x) c).1).length = storageSize w N)
    (hf : ∀ m x c p, (view m).length = storageSize w N → c.1 < p → p < storageSize w N * w →
      get (view (reduceCall f r (m, x) c).1) p = get (view m) p)
    (st : σ) (init : ρ) (hl : (view st).length = storageSize w N) :
    transformReduceLive N f r view st init = .ok
      (((List.range (storageSize w N * w)).filter (fun p => get (view st) p == .ok true)).foldl
        (fun s p => r (f s.1 p).1 s.2 (f s.1 p).2) (st, init)) := by
  have hw0 := StdWidth.pos hw
  obtain ⟨calls, h1, h2⟩ := C131_transform_reduce_exact hw f r view hv st init hl
  have key : ∀ (l : List (Nat × Bool)) (s : σ × ρ) (p : Nat), (view s.1).length = storageSize w N → p < storageSize w N * w →
      (∀ c ∈ l, c.1 < p) → bits (view (after (reduceCall f r) s l).1) p = bits (view s.1) p := by
    intro l
    induction l with
    | nil => intro s p _ _ _; rfl
    | cons c cs ih =>
      intro s p hl hp hc
      have h3 := ih (reduceCall f r s c) p (hv s.1 s.2 c hl) hp (fun d hd => hc d (by simp [hd]))
      show bits (view (after (reduceCall f r) (reduceCall f r s c) cs).1) p = _
      rw [h3]
      have h4 := hf s.1 s.2 c p hl (hc c (by simp)) hp
      rw [get_bits hw0 (by rw [hv s.1 s.2 c hl]; omega), get_bits hw0 (by rw [hl]; omega)] at h4
      exact Outcome.ok.inj h4
  have e : calls = Spec.setBit.calls (storageSize w N * w) (fun p => get (view st) p == .ok true) := by
    conv_lhs => rw [h2]
    refine calls_congr .setBit (fun p hp => ?_)
    unfold found
    rw [key _ (st, init) p hl hp (fun c hc => by
      have := mem_takeWhile hc
      have h4 := Nat.div_mul_le_self p w
      simp at this; omega), get_bits hw0 (by rw [hl]; omega)]
    cases bits (view st) p <;> rfl
  rw [h1, e]
  simp only [after, Spec.calls, List.foldl_map]
  rfl

/-! ### Examples -/

/-- Resetting each position when it is visited: nothing is missed. -/
example : forEachLive .setBit 20 (fun st c => (result (reset st.1 c.1) st.1, st.2 ++ [c.1])) (·.1)
    (([0x82#8, 0x01#8, 0x0c#8] : Words 8), ([] : List Nat)) = .ok ([0#8, 0#8, 0#8], [1, 7, 8, 18, 19]) := by decide

/-- The same bits in words of 8 and in one of 32, with a callback that sets the bit two positions above: in words of 8, some of them are
visited. -/
example : ((forEachLive .setBit 20 (fun st c => (result (set st.1 (min 19 (c.1 + 2)) true) st.1, st.2 ++ [c.1])) (·.1)
      (([0x80#8, 0x00#8, 0x00#8] : Words 8), ([] : List Nat))) >>= fun s => pure s.2) = .ok [7, 9] ∧
    ((forEachLive .setBit 20 (fun st c => (result (set st.1 (min 19 (c.1 + 2)) true) st.1, st.2 ++ [c.1])) (·.1)
      (([0x80#32] : Words 32), ([] : List Nat))) >>= fun s => pure s.2) = .ok [7] := by decide

example : ∃ s : Words 8, Bitset.set (empty 8 20) 0 true = .ok s := ⟨_, rfl⟩

/-- The sum of the positions, resetting each: 1 + 7 + 8 + 18. -/
example : transformReduceLive 20 (fun m p => (result (reset m p) m, p)) (fun m (x y : Nat) => (m, x + y)) id
    ([0x82#8, 0x01#8, 0x04#8] : Words 8) 0 = .ok ([0#8, 0#8, 0#8], 34) := by decide

end Verif.Bitset
