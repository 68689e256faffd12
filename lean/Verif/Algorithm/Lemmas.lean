import Verif.Algorithm.Model
import Mathlib.Tactic.NormNum

/-!
# Lemmas for the algorithms
-/

namespace Verif.Algorithm

variable {α β τ σ X : Type}

/-- The positions at distance `k` from the start of each range. -/
def shift (its : List Nat) (k : Nat) : List Nat := its.map (· + k)

theorem shift_zero (its : List Nat) : shift its 0 = its := by simp [shift]

theorem shift_cons (p : Nat) (ps : List Nat) (k : Nat) : shift (p :: ps) k = (p + k) :: shift ps k := rfl

theorem incs_shift (its : List Nat) (k : Nat) : incs (shift its k) = shift its (k + 1) := by
  simp only [incs, shift, List.map_map]; rfl

theorem shift_incs (its : List Nat) (k : Nat) : shift (incs its) k = shift its (k + 1) := by
  simp only [incs, shift, List.map_map]
  apply List.map_congr_left
  intro p _
  show p + 1 + k = p + (k + 1)
  omega

theorem derefs_ok {mem : List α} {ps : List Nat} : derefs mem ps = .ok () ↔ ∀ p ∈ ps, p < mem.length := by
  unfold derefs
  split
  · rename_i h
    simpa using h
  · rename_i h
    simpa using h

theorem derefs_ub {mem : List α} {ps : List Nat} : derefs mem ps = .ub ↔ ¬ ∀ p ∈ ps, p < mem.length := by
  rw [← derefs_ok]
  unfold derefs
  split <;> simp

theorem derefs_cases (mem : List α) (ps : List Nat) : derefs mem ps = .ok () ∨ derefs mem ps = .ub := by
  unfold derefs; split <;> simp

/-! ## Loops -/

theorem whileRange_ok {call : X → List Nat → Outcome X} (x : Nat → X) (n fuel first : Nat) (rest : List Nat)
    (h : ∀ k, k < n → call (x k) (shift (first :: rest) k) = .ok (x (k + 1))) (hf : n ≤ fuel) :
    whileRange call (first + n) fuel (x 0) first rest = .ok (x n, shift (first :: rest) n) := by
  induction n generalizing fuel first rest x with
  | zero => unfold whileRange; rw [if_pos (by omega), shift_zero]
  | succ n ih =>
    obtain ⟨fuel, rfl⟩ : ∃ k, fuel = k + 1 := ⟨fuel - 1, by omega⟩
    have h0 := h 0 (by omega)
    rw [shift_zero] at h0
    have := ih (fun k => x (k + 1)) fuel (first + 1) (incs rest) (fun k hk => by
      have := h (k + 1) (by omega)
      rw [← shift_incs] at this
      exact this) (by omega)
    unfold whileRange
    rw [if_neg (by omega)]
    simp only [h0, Outcome.ok_bind]
    rw [show first + (n + 1) = first + 1 + n by omega, this]
    rw [← shift_incs]; rfl

theorem whileRange_ub {call : X → List Nat → Outcome X} (x : Nat → X) (n k fuel first : Nat) (rest : List Nat)
    (hk : k < n) (h : ∀ j, j < k → call (x j) (shift (first :: rest) j) = .ok (x (j + 1)))
    (hu : call (x k) (shift (first :: rest) k) = .ub) :
    whileRange call (first + n) fuel (x 0) first rest = .ub := by
  induction k generalizing fuel first rest x n with
  | zero =>
    unfold whileRange
    rw [if_neg (by omega)]
    cases fuel with
    | zero => rfl
    | succ fuel => rw [shift_zero] at hu; simp only [hu]; rfl
  | succ k ih =>
    unfold whileRange
    rw [if_neg (by omega)]
    cases fuel with
    | zero => rfl
    | succ fuel =>
      have h0 := h 0 (by omega)
      rw [shift_zero] at h0
      obtain ⟨m, rfl⟩ : ∃ m, n = m + 1 := ⟨n - 1, by omega⟩
      simp only [h0, Outcome.ok_bind]
      rw [show first + (m + 1) = first + 1 + m by omega]
      apply ih (fun k => x (k + 1)) m fuel (first + 1) (incs rest) (by omega)
      · intro j hj
        have := h (j + 1) (by omega)
        rw [← shift_incs] at this
        exact this
      · have := hu
        rw [← shift_incs] at this
        exact this

theorem whileRange_past {call : X → List Nat → Outcome X} (hc : ∀ x ps, call x ps ≠ .panic) (last fuel : Nat) (x : X)
    (first : Nat) (rest : List Nat) (h : last < first) : whileRange call last fuel x first rest = .ub := by
  induction fuel generalizing x first rest with
  | zero => unfold whileRange; rw [if_neg (by omega)]
  | succ fuel ih =>
    unfold whileRange
    rw [if_neg (by omega)]
    simp only
    cases hr : call x (first :: rest) with
    | ok y => rw [Outcome.ok_bind]; exact ih y (first + 1) _ (by omega)
    | ub => rfl
    | panic => exact absurd hr (hc _ _)

/-- The values for which `n--` is defined. -/
def ITy.Dec (t : ITy) (n : Int) : Prop := t.Rep n ∧ ¬ (t.signed = true ∧ 32 ≤ t.width ∧ n = -2 ^ (t.width - 1))

theorem dec_defined {t : ITy} {n : Int} (h : t.Dec n) : ∃ m, t.dec n = .ok m ∧ (0 < n → m = n - 1 ∧ t.Dec m) := by
  obtain ⟨h1, h2⟩ := h
  unfold ITy.Rep at h1
  unfold ITy.dec
  have hp : (0 : Int) < 2 ^ (t.width - 1) := by positivity
  cases hs : t.signed
  · rw [hs] at h1
    simp only [Bool.false_eq_true, if_false] at h1 ⊢
    by_cases h0 : n = 0
    · exact ⟨_, by rw [if_pos h0], fun h => by omega⟩
    · refine ⟨n - 1, by rw [if_neg h0], fun h => ⟨rfl, ?_, by simp [hs]⟩⟩
      unfold ITy.Rep; rw [hs]; simp only [Bool.false_eq_true, if_false]; omega
  · rw [hs] at h1
    simp only [if_true] at h1 ⊢
    by_cases h0 : n = -2 ^ (t.width - 1)
    · have : ¬ 32 ≤ t.width := fun h => h2 ⟨hs, h, h0⟩
      exact ⟨_, by rw [if_pos h0, if_neg this], fun h => by omega⟩
    · refine ⟨n - 1, by rw [if_neg h0], fun h => ⟨rfl, ?_, fun h' => by omega⟩⟩
      unfold ITy.Rep; rw [hs]; simp only [if_true]; omega

/-- The loop ends after `k` rounds: `n` counted down reaches a value that stops it. -/
inductive Counts (t : ITy) (go : Int → Bool) : Nat → Int → Prop
  | stop {n m : Int} : t.dec n = .ok m → go n = false → Counts t go 0 n
  | more {k : Nat} {n m : Int} : t.dec n = .ok m → go n = true → Counts t go k m → Counts t go (k + 1) n

theorem counts_pos {t : ITy} {n : Int} (h : t.Dec n) : Counts t (fun n => decide (n > 0)) n.toNat n := by
  obtain ⟨k, hk⟩ : ∃ k, n.toNat = k := ⟨_, rfl⟩
  rw [hk]
  induction k generalizing n with
  | zero =>
    obtain ⟨m, hm, _⟩ := dec_defined h
    exact .stop hm (by simp; omega)
  | succ k ih =>
    obtain ⟨m, hm, h2⟩ := dec_defined h
    obtain ⟨rfl, hd⟩ := h2 (by omega)
    exact .more hm (by simp; omega) (ih hd (by omega))

theorem counts_ne {t : ITy} {n : Int} (h : t.Dec n) (h0 : 0 ≤ n) : Counts t (fun n => decide (n ≠ 0)) n.toNat n := by
  obtain ⟨k, hk⟩ : ∃ k, n.toNat = k := ⟨_, rfl⟩
  rw [hk]
  induction k generalizing n with
  | zero =>
    obtain ⟨m, hm, _⟩ := dec_defined h
    exact .stop hm (by simp; omega)
  | succ k ih =>
    obtain ⟨m, hm, h2⟩ := dec_defined h
    obtain ⟨rfl, hd⟩ := h2 (by omega)
    exact .more hm (by simp; omega) (ih hd (by omega) (by omega))

theorem whileCount_ok {t : ITy} {go : Int → Bool} {call : X → List Nat → Outcome X} (x : Nat → X) {k : Nat} {n : Int}
    (hn : Counts t go k n) (fuel : Nat) (its : List Nat)
    (h : ∀ j, j < k → call (x j) (shift its j) = .ok (x (j + 1))) (hf : k ≤ fuel) :
    whileCount t go call fuel (x 0) n its = .ok (x k, shift its k) := by
  induction hn generalizing fuel its x with
  | stop h1 h2 =>
    unfold whileCount
    rw [h1, Outcome.ok_bind, h2, shift_zero]; rfl
  | more h1 h2 _ ih =>
    rename_i k n m _
    obtain ⟨fuel, rfl⟩ : ∃ k, fuel = k + 1 := ⟨fuel - 1, by omega⟩
    have h0 := h 0 (by omega)
    rw [shift_zero] at h0
    have := ih (fun k => x (k + 1)) fuel (incs its) (fun j hj => by
      rw [shift_incs]; exact h (j + 1) (by omega)) (by omega)
    unfold whileCount
    rw [h1, Outcome.ok_bind, h2]
    simp only [h0, Outcome.ok_bind, if_true]
    rw [this, shift_incs]

theorem whileCount_ub {t : ITy} {go : Int → Bool} {call : X → List Nat → Outcome X} (x : Nat → X) {n' : Nat} {n : Int}
    (hn : Counts t go n' n) (k fuel : Nat) (its : List Nat) (hk : k < n')
    (h : ∀ j, j < k → call (x j) (shift its j) = .ok (x (j + 1))) (hu : call (x k) (shift its k) = .ub) :
    whileCount t go call fuel (x 0) n its = .ub := by
  induction hn generalizing fuel its x k with
  | stop => omega
  | more h1 h2 _ ih =>
    unfold whileCount
    rw [h1, Outcome.ok_bind, h2]
    cases fuel with
    | zero => rfl
    | succ fuel =>
      cases k with
      | zero => rw [shift_zero] at hu; simp only [hu]; rfl
      | succ k =>
        have h0 := h 0 (by omega)
        rw [shift_zero] at h0
        simp only [h0, Outcome.ok_bind, if_true]
        apply ih (fun k => x (k + 1)) k fuel (incs its) (by omega)
        · intro j hj; rw [shift_incs]; exact h (j + 1) (by omega)
        · rw [shift_incs]; exact hu

/-! ## What has to be in the memory -/

/-- Ranges of length `n` starting at the positions lie in a memory of the given size. -/
def Fits (len n : Nat) (its : List Nat) : Prop := ∀ p ∈ its, p + n ≤ len

theorem fits_lt {len n : Nat} {its : List Nat} (h : Fits len n its) {k : Nat} (hk : k < n) :
    ∀ p ∈ shift its k, p < len := by
  intro p hp
  obtain ⟨q, hq, rfl⟩ := List.mem_map.mp hp
  have := h q hq
  omega

/-- If ranges of length `n` do not fit there is a first position outside. -/
theorem not_fits {len n : Nat} {its : List Nat} (h : ¬ Fits len n its) (h0 : 0 < n) :
    ∃ k, k < n ∧ (∀ j, j < k → ∀ p ∈ shift its j, p < len) ∧ ¬ ∀ p ∈ shift its k, p < len := by
  have hex : ∃ k, ¬ ∀ p ∈ shift its k, p < len := ⟨n - 1, fun hc => h fun p hp => by
    have := hc (p + (n - 1)) (List.mem_map.mpr ⟨p, hp, rfl⟩)
    omega⟩
  classical
  refine ⟨Nat.find hex, ?_, fun j hj => ?_, Nat.find_spec hex⟩
  · have : Nat.find hex ≤ n - 1 := Nat.find_le (h := hex) fun hc => h fun p hp => by
      have := hc (p + (n - 1)) (List.mem_map.mpr ⟨p, hp, rfl⟩)
      omega
    omega
  · exact not_not.mp (Nat.find_min hex hj)

end Verif.Algorithm
