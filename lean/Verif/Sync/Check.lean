import Verif.Sync.Model

/-!
# Checking concrete histories, for the examples
-/

namespace Verif.Sync

open Verif.Conc

instance : DecidableRel Coherent := fun a b => by
  cases a <;> cases b <;> simp only [Coherent] <;> infer_instance

/-- The rules that speak of the accesses only. -/
def rules (m : Nat) (accs : List (List Acc)) : Bool :=
  (accs.all fun as => as.all fun a => match a with
    | .write j => decide (j < m)
    | .read p => decide (p ≤ m)) &&
  ((List.range m).all fun j => accs.any fun as => as.contains (.write j)) &&
  ((List.range accs.length).all fun t => (List.range accs.length).all fun t' =>
    (List.range (accs.getD t []).length).all fun i => (List.range (accs.getD t' []).length).all fun i' =>
      match (accs.getD t [])[i]?, (accs.getD t' [])[i']? with
      | some (.write j), some (.write j') => decide (j = j' → t = t' ∧ i = i')
      | _, _ => true) &&
  accs.all fun as => decide (as.Pairwise Coherent)

theorem History.of_rules {w : Nat} {Call ρ : Type} {impl : Call → LProg w ρ} {c0 : BitVec w} {m : Nat} {val : Nat → BitVec w}
    {threads : List (List (Rec Call ρ))} (h0 : val 0 = c0) (hd : ∀ rs ∈ threads, ∀ r ∈ rs, Does impl val r)
    (h : rules m (threads.map fun rs => rs.map Rec.acc) = true) : History impl c0 m val threads := by
  simp only [rules, Bool.and_eq_true] at h
  obtain ⟨⟨⟨h1, h2⟩, h3⟩, h4⟩ := h
  refine ⟨h0, hd, fun rs hrs r hr => ?_, fun j hj => ?_, ?_, fun rs hrs => ?_⟩
  · rw [List.all_eq_true] at h1
    have h1 := h1 _ (List.mem_map_of_mem hrs)
    rw [List.all_eq_true] at h1
    have h1 := h1 _ (List.mem_map_of_mem hr)
    refine ⟨fun j hj => ?_, fun p hp => ?_⟩
    · rw [hj] at h1; simpa using h1
    · rw [hp] at h1; simpa using h1
  · rw [List.all_eq_true] at h2
    have h2 := h2 j (List.mem_range.2 hj)
    rw [List.any_eq_true] at h2
    obtain ⟨as, h5, h6⟩ := h2
    rw [List.mem_map] at h5
    obtain ⟨rs, h5, rfl⟩ := h5
    rw [List.contains_iff_mem, List.mem_map] at h6
    obtain ⟨r, h6, h7⟩ := h6
    exact ⟨rs, h5, r, h6, h7⟩
  · intro t t' i i' rs rs' r r' j ht ht' hi hi' ha ha'
    obtain ⟨bt, et⟩ := List.getElem?_eq_some_iff.1 ht
    obtain ⟨bt', et'⟩ := List.getElem?_eq_some_iff.1 ht'
    obtain ⟨bi, -⟩ := List.getElem?_eq_some_iff.1 hi
    obtain ⟨bi', -⟩ := List.getElem?_eq_some_iff.1 hi'
    have e1 : (threads.map fun rs => rs.map Rec.acc).getD t [] = rs.map Rec.acc := by
      simp [List.getD, ht]
    have e2 : (threads.map fun rs => rs.map Rec.acc).getD t' [] = rs'.map Rec.acc := by
      simp [List.getD, ht']
    rw [List.all_eq_true] at h3
    have h3 := h3 t (List.mem_range.2 (by simpa using bt))
    rw [List.all_eq_true] at h3
    have h3 := h3 t' (List.mem_range.2 (by simpa using bt'))
    rw [e1, e2, List.all_eq_true] at h3
    have h3 := h3 i (List.mem_range.2 (by simpa using bi))
    rw [List.all_eq_true] at h3
    have h3 := h3 i' (List.mem_range.2 (by simpa using bi'))
    rw [List.getElem?_map, List.getElem?_map, hi, hi'] at h3
    simp only [Option.map_some, ha, ha', decide_eq_true_eq] at h3
    exact h3 trivial
  · rw [List.all_eq_true] at h4
    simpa using h4 _ (List.mem_map_of_mem hrs)

end Verif.Sync
