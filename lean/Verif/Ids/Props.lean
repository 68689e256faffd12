import Verif.Ids.Spec
import Verif.Bitset.PropsVisit

/-!
# C145: identifiers
-/

namespace Verif.Ids

open Verif.BitOps (StdWidth)
open Verif.Bitset (Words bits storageSize storage_bounds)

/-- The invariant: the positions below `N` are the identifiers in use, whatever is stored above. -/
structure Inv (w N : Nat) (s : Words w) (u : Used) : Prop where
  words : s.length = storageSize w N
  used : ∀ i, i < N → bits s i = u i

theorem put_ok {w N : Nat} (hw : StdWidth w) {s : Words w} {u : Used} (h : Inv w N s u) {i : Nat} (hi : i < N) (b : Bool) :
    ∃ s', Bitset.set s i b = .ok s' ∧ Inv w N s' (put u i b) := by
  have hw0 := Bitset.StdWidth.pos hw
  have hB := storage_bounds hw0 N
  obtain ⟨r, e1, e2, e3⟩ := Bitset.set_spec hw0 (s := s) (i := i) (by rw [h.words]; omega) b
  refine ⟨r, e1, by rw [e2, h.words], fun j hj => ?_⟩
  rw [e3, put, h.used j hj]

theorem step_ok {w N : Nat} (hw : StdWidth w) {s : Words w} {u u' : Used} {k : Cmd} {r : Out} (h : Inv w N s u) (hs : Step N u k r u') :
    ∃ s', step N s k = .ok (s', r) ∧ Inv w N s' u' := by
  have hw0 := Bitset.StdWidth.pos hw
  have hB := storage_bounds hw0 N
  have hget : ∀ i, i < N → Bitset.get s i = .ok (u i) := fun i hi => by
    rw [Bitset.get_bits hw0 (by rw [h.words]; omega), h.used i hi]
  cases hs with
  | @acquire i hi hf hl =>
    obtain ⟨k, ek, hk, hlow, hz⟩ := Bitset.lowestUnsetLoop_spec hw s 0
    have : k = i := by
      rcases Nat.lt_trichotomy k i with g | g | g
      · have hb := hz (by rw [h.words]; omega)
        rw [h.used k (by omega), hl k g] at hb; cases hb
      · exact g
      · have := hlow i g
        rw [h.used i hi, hf] at this; cases this
    subst this
    obtain ⟨s', e, h'⟩ := put_ok hw h hi true
    exact ⟨s', by simp [step, Bitset.lowestUnset, ek, hi, e], h'⟩
  | none ha =>
    obtain ⟨k, ek, hk, hlow, hz⟩ := Bitset.lowestUnsetLoop_spec hw s 0
    have : ¬ k < N := by
      intro g
      have hb := hz (by rw [h.words]; omega)
      rw [h.used k g, ha k g] at hb; cases hb
    exact ⟨s, by simp [step, Bitset.lowestUnset, ek, this], h⟩
  | @claim i hi =>
    obtain ⟨s', e, h'⟩ := put_ok hw h hi true
    cases hu : u i with
    | true =>
      refine ⟨s, by simp [step, hget i hi, hu], ?_⟩
      have : put u i true = u := by funext j; unfold put; split <;> simp_all
      rw [this]; exact h
    | false => exact ⟨s', by simp [step, hget i hi, hu, e], h'⟩
  | @release i hi =>
    obtain ⟨r, e1, e2, e3⟩ := Bitset.reset_spec hw0 (s := s) (i := i) (by rw [h.words]; omega)
    refine ⟨r, by simp [step, e1], by rw [e2, h.words], fun j hj => ?_⟩
    rw [e3, put, h.used j hj]
  | claimAll =>
    exact ⟨_, rfl, by simp [Bitset.setAll, h.words], fun i hi => Bitset.setAll_bits hw0 (by rw [h.words]; omega)⟩
  | releaseAll =>
    exact ⟨_, rfl, by simp [Bitset.resetAll, h.words], fun i hi => Bitset.resetAll_bits hw0 (by rw [h.words]; omega)⟩
  | swapAll =>
    refine ⟨_, rfl, by simp [Bitset.flipAll, h.words], fun i hi => ?_⟩
    rw [Bitset.flipAll_bits hw0 (by rw [h.words]; omega), h.used i hi]
  | available =>
    refine ⟨s, ?_, h⟩
    simp only [step, Bitset.C10_bitset_count hw h.words, Outcome.ok_bind, Outcome.pure_eq_ok]
    congr 3
    have e1 : (List.range N).filter (fun i => Bitset.get s i == .ok true) = (List.range N).filter u := by
      apply List.filter_congr
      intro i hi
      rw [hget i (by simpa using hi)]
      cases u i <;> rfl
    rw [e1]
    have : ∀ l : List Nat, (l.filter u).length + (l.filter fun j => !u j).length = l.length := by
      intro l
      induction l with
      | nil => rfl
      | cons a l ih => simp only [List.filter_cons, List.length_cons]; cases u a <;> simp <;> omega
    have := this (List.range N)
    rw [List.length_range] at this
    omega
  | full =>
    obtain ⟨⟨r, e, hr⟩, _⟩ := Bitset.C10_bitset_predicates hw h.words
    refine ⟨s, ?_, h⟩
    simp only [step, e, Outcome.ok_bind, Outcome.pure_eq_ok]
    congr 3
    rw [Bool.eq_iff_iff, hr]
    simp only [List.all_eq_true, List.mem_range]
    constructor
    · intro g i hi; have := g i hi; rw [hget i hi] at this; exact Outcome.ok.inj this
    · intro g i hi; rw [hget i hi, g i hi]

theorem run_ok {w N : Nat} (hw : StdWidth w) {u u' : Used} {ks : List Cmd} {rs : List Out} (hr : Runs N u ks rs u') :
    ∀ {s : Words w}, Inv w N s u → ∃ s', run N s ks = .ok (s', rs) ∧ Inv w N s' u' := by
  induction hr with
  | nil u => intro s hi; exact ⟨s, rfl, hi⟩
  | cons h _ ih =>
    intro s hi
    obtain ⟨s1, e1, hi1⟩ := step_ok hw hi h
    obtain ⟨s2, e2, hi2⟩ := ih hi1
    exact ⟨s2, by simp [run, e1, e2], hi2⟩

/-- **C145.** Every history of acquiring, claiming and releasing identifiers below `N` is defined: acquiring gives the least identifier that is
not in use, and nothing exactly if all are in use; so no identifier is given out twice before it is released. -/
theorem C145_identifiers {w N : Nat} (hw : StdWidth w) {ks : List Cmd} {rs : List Out} {u : Used} (hr : Runs N (fun _ => false) ks rs u) :
    ∃ s, run N (Bitset.empty w N) ks = .ok (s, rs) ∧ ∀ i, i < N → Bitset.get s i = .ok (u i) := by
  have hw0 := Bitset.StdWidth.pos hw
  have hB := storage_bounds hw0 N
  obtain ⟨s, e, h⟩ := run_ok hw hr (s := Bitset.empty w N) ⟨Bitset.length_empty, fun _ _ => Bitset.bits_empty⟩
  exact ⟨s, e, fun i hi => by rw [Bitset.get_bits hw0 (by rw [h.words]; omega), h.used i hi]⟩

/-- Every command on identifiers below `N` has an answer in the specification. -/
theorem step_total (N : Nat) (u : Used) (k : Cmd) (hk : ∀ i, k = .claim i ∨ k = .release i → i < N) : ∃ r u', Step N u k r u' := by
  cases k with
  | acquire =>
    by_cases h : ∃ i, i < N ∧ u i = false
    · have key : ∀ n, (∃ i, i < n ∧ u i = false) → ∃ i, i < n ∧ u i = false ∧ ∀ j, j < i → u j = true := by
        intro n
        induction n with
        | zero => rintro ⟨i, hi, _⟩; omega
        | succ n ih =>
          rintro ⟨i, hi, hu⟩
          by_cases g : ∃ i, i < n ∧ u i = false
          · obtain ⟨i, a, b⟩ := ih g; exact ⟨i, by omega, b⟩
          · refine ⟨i, hi, hu, fun j hj => ?_⟩
            cases hc : u j with
            | true => rfl
            | false => exact absurd ⟨j, by omega, hc⟩ g
      obtain ⟨i, a, b, c⟩ := key N h
      exact ⟨_, _, .acquire a b c⟩
    · refine ⟨_, _, .none fun j hj => ?_⟩
      cases hc : u j with
      | true => rfl
      | false => exact absurd ⟨j, hj, hc⟩ h
  | claim i => exact ⟨_, _, .claim (hk i (.inl rfl))⟩
  | release i => exact ⟨_, _, .release (hk i (.inr rfl))⟩
  | claimAll => exact ⟨_, _, .claimAll⟩
  | releaseAll => exact ⟨_, _, .releaseAll⟩
  | swapAll => exact ⟨_, _, .swapAll⟩
  | available => exact ⟨_, _, .available⟩
  | full => exact ⟨_, _, .full⟩

/-- All are claimed, which also sets stored bits above the size; 1 is released and acquired; then there is none. -/
example : ∃ u, Runs 3 (fun _ => false) [.acquire, .claimAll, .release 1, .available, .acquire, .acquire, .full, .claim 2]
    [.id (some 0), .unit, .unit, .num 1, .id (some 1), .id none, .bool true, .bool false] u := by
  refine ⟨_, .cons (.acquire (i := 0) (by decide) rfl (by decide)) (.cons .claimAll (.cons (.release (by decide)) (.cons (r := .num 1) .available
    (.cons (.acquire (i := 1) (by decide) rfl ?_) (.cons (.none ?_) (.cons (r := .bool true) .full (.cons (r := .bool false) (.claim (by decide)) (.nil _))))))))⟩
  · decide
  · decide

end Verif.Ids
