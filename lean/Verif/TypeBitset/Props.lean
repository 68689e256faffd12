import Verif.TypeBitset.Model
import Verif.Bitset.PropsVisit

/-!
# `type_bitset` (C17)
-/

namespace Verif.TypeBitset

open Verif.Bitset Verif.BitOps

variable {T : Type} [DecidableEq T]

theorem mpUnique_aux (ts : List T) : ∀ acc : List T, (acc ++ ts).Nodup →
    ts.foldl (fun acc t => if t ∈ acc then acc else acc ++ [t]) acc = acc ++ ts := by
  induction ts with
  | nil => intro acc _; simp
  | cons t ts ih =>
    intro acc h
    have hn : t ∉ acc := by
      rw [List.nodup_append] at h
      intro ht
      exact h.2.2 t ht t (by simp) rfl
    simp only [List.foldl_cons, if_neg hn]
    rw [ih _ (by simpa using h)]; simp

theorem mpUnique_nodup {ts : List T} (h : ts.Nodup) : mpUnique ts = ts := by
  rw [mpUnique, mpUnique_aux ts [] (by simpa using h)]; rfl

theorem idx_inj {ts : List T} {a b : T} (ha : a ∈ ts) : ts.idxOf a = ts.idxOf b → a = b := by
  intro h
  have h1 : ts.idxOf a < ts.length := List.idxOf_lt_length_iff.mpr ha
  have e1 : ts[ts.idxOf a] = a := List.getElem_idxOf h1
  have h2 : ts.idxOf b < ts.length := by omega
  have e2 : ts[ts.idxOf b] = b := List.getElem_idxOf h2
  rw [← e1, ← e2]; simp only [h]

theorem found_iff {ts us : List T} (h : ts.Nodup) : found ts us = true ↔ ∀ u ∈ us, u ∈ ts := by
  unfold found capacity indexOf
  rw [mpUnique_nodup h, List.all_eq_true]
  simp only [decide_eq_true_eq, List.idxOf_lt_length_iff]

/-- Without repeated types, `operator[]` for a listed type reads its bit. -/
theorem get_mem {w : Nat} (hw : 0 < w) {ts : List T} (h : ts.Nodup) {s : Words w}
    (hs : s.length = storageSize w (capacity ts)) {u : T} (hu : u ∈ ts) :
    get ts s u = some (.ok (bits s (ts.idxOf u))) := by
  have hB := storage_bounds hw (capacity ts)
  have hlt : ts.idxOf u < ts.length := List.idxOf_lt_length_iff.mpr hu
  have hcap : capacity ts = ts.length := by rw [capacity, mpUnique_nodup h]
  unfold get indexOf
  rw [mpUnique_nodup h, if_pos hlt, get_bits hw (by rw [hs]; omega)]

theorem foldOp_spec {w : Nat} (hw : 0 < w) {ts : List T} (h : ts.Nodup)
    {op : Words w → Nat → Outcome (Words w)} {g : Bool → Bool}
    (hop : ∀ (s : Words w) i, i < s.length * w → ∃ r, op s i = .ok r ∧ r.length = s.length ∧
      ∀ j, bits r j = if j = i then g (bits s j) else bits s j) :
    ∀ (us : List T) (s : Words w), (∀ u ∈ us, u ∈ ts) → s.length = storageSize w (capacity ts) →
    ∃ r, foldOp op ts us s = .ok r ∧ r.length = storageSize w (capacity ts) ∧
      ∀ t, t ∈ ts → bits r (ts.idxOf t) = (us.count t).rec (bits s (ts.idxOf t)) (fun _ b => g b) := by
  have hcap : capacity ts = ts.length := by rw [capacity, mpUnique_nodup h]
  have hB := storage_bounds hw (capacity ts)
  intro us
  induction us with
  | nil => intro s _ hs; exact ⟨s, rfl, hs, fun t _ => rfl⟩
  | cons u us ih =>
    intro s hu hs
    have hut := hu u (by simp)
    have hlt : ts.idxOf u < ts.length := List.idxOf_lt_length_iff.mpr hut
    obtain ⟨s1, e1, hl1, hb1⟩ := hop s (ts.idxOf u) (by rw [hs]; omega)
    obtain ⟨r, e, hl, hb⟩ := ih s1 (fun v hv => hu v (by simp [hv])) (by omega)
    refine ⟨r, by simp [foldOp, indexOf, e1, e], hl, fun t ht => ?_⟩
    rw [hb t ht, hb1]
    have gen : ∀ (n : Nat) (b : Bool), (n.rec (g b) (fun _ b => g b) : Bool) =
        ((n + 1).rec b (fun _ b => g b) : Bool) := by
      intro n b
      induction n with
      | zero => rfl
      | succ n ihn => show g _ = g _; rw [ihn]
    by_cases htu : t = u
    · subst htu
      rw [if_pos rfl, List.count_cons_self, gen]
    · rw [if_neg (fun e => htu (idx_inj ht e)), List.count_cons_of_ne (Ne.symm htu)]

/-- **C17, partial.** Without repeated types: `set`, `reset` and `flip` with a list of types compile
exactly when all of them are listed; afterwards a type in the argument reports the new value (for
`flip`: inverted once per occurrence) and every other type reports what it did before.  The list
constructor sets exactly the listed types.  Missing: type lists with repetitions, for which it is
false, `C17_type_bitset_repeated_violated`. -/
theorem C17_type_bitset_partial {w : Nat} (hw : StdWidth w) {ts : List T} (h : ts.Nodup) {s : Words w}
    (hs : s.length = storageSize w (capacity ts)) (us : List T) (hus : us ≠ []) :
    (∀ v, if ∀ u ∈ us, u ∈ ts then ∃ r, set ts us v s = some (.ok r) ∧
        (∀ t ∈ ts, get ts r t = if t ∈ us then some (.ok v) else get ts s t) else set ts us v s = none) ∧
    (if ∀ u ∈ us, u ∈ ts then ∃ r, reset ts us s = some (.ok r) ∧
        (∀ t ∈ ts, get ts r t = if t ∈ us then some (.ok false) else get ts s t) else reset ts us s = none) ∧
    (if ∀ u ∈ us, u ∈ ts then ∃ r, flip ts us s = some (.ok r) ∧
        (∀ t ∈ ts, ∀ b, get ts s t = some (.ok b) →
          get ts r t = some (.ok (b ^^ decide (us.count t % 2 = 1)))) else flip ts us s = none) ∧
    (if ∀ u ∈ us, u ∈ ts then ∃ r, ofList w ts us = some (.ok r) ∧
        (∀ t ∈ ts, get ts r t = some (.ok (decide (t ∈ us)))) else ofList w ts us = none) := by
  have hw0 := StdWidth.pos hw
  have hfound := found_iff (us := us) h
  have hcap : capacity ts = ts.length := by rw [capacity, mpUnique_nodup h]
  have hB := storage_bounds hw0 (capacity ts)
  have const_rec : ∀ (n : Nat) (v b : Bool), (n.rec b (fun _ _ => v) : Bool) = if 0 < n then v else b := by
    intro n v b; cases n <;> simp <;> rfl
  refine ⟨fun v => ?_, ?_, ?_, ?_⟩
  · split
    · rename_i hu
      obtain ⟨r, e, hl, hb⟩ := foldOp_spec hw0 h (op := fun s i => Bitset.set s i v) (g := fun _ => v)
        (fun s i hi => set_spec hw0 hi v) us s hu hs
      refine ⟨r, by simp [set, hfound.mpr hu, hus, e], fun t ht => ?_⟩
      rw [get_mem hw0 h hl ht, get_mem hw0 h hs ht, hb t ht, const_rec]
      simp only [List.count_pos_iff]
      split <;> rfl
    · rename_i hu
      rw [set, if_neg (by rw [hfound]; exact hu)]
  · split
    · rename_i hu
      obtain ⟨r, e, hl, hb⟩ := foldOp_spec hw0 h (op := Bitset.reset) (g := fun _ => false)
        (fun s i hi => reset_spec hw0 hi) us s hu hs
      refine ⟨r, by simp [reset, hfound.mpr hu, hus, e], fun t ht => ?_⟩
      rw [get_mem hw0 h hl ht, get_mem hw0 h hs ht, hb t ht, const_rec]
      simp only [List.count_pos_iff]
      split <;> rfl
    · rename_i hu
      rw [reset, if_neg (by rw [hfound]; exact hu)]
  · split
    · rename_i hu
      obtain ⟨r, e, hl, hb⟩ := foldOp_spec hw0 h (op := Bitset.flip) (g := fun b => !b)
        (fun s i hi => flip_spec hw0 hi) us s hu hs
      refine ⟨r, by simp [flip, hfound.mpr hu, hus, e], fun t ht b hbt => ?_⟩
      rw [get_mem hw0 h hs ht] at hbt
      simp only [Option.some.injEq, Outcome.ok.injEq] at hbt
      rw [get_mem hw0 h hl ht, hb t ht, hbt]
      have : ∀ (n : Nat) (b : Bool), (n.rec b (fun _ b => !b) : Bool) = (b ^^ decide (n % 2 = 1)) := by
        intro n b
        induction n with
        | zero => simp; rfl
        | succ n ihn =>
          show (!(n.rec b (fun _ b => !b) : Bool)) = _
          rw [ihn]
          rcases Nat.mod_two_eq_zero_or_one n with h1 | h1
          · simp [h1, show (n + 1) % 2 = 1 by omega]
          · simp [h1, show (n + 1) % 2 = 0 by omega]
      rw [this]
    · rename_i hu
      rw [flip, if_neg (by rw [hfound]; exact hu)]
  · have hall : (us.all (fun u => indexOf u (mpUnique ts) < capacity ts)) = true ↔ ∀ u ∈ us, u ∈ ts := by
      rw [mpUnique_nodup h]; exact hfound
    split
    · rename_i hu
      obtain ⟨r, e, hl, hb⟩ := placeBits_spec hw0 (us.map fun u => ts.idxOf u) (empty w (capacity ts)) (by
        intro p hp
        rw [List.mem_map] at hp
        obtain ⟨u, h1, rfl⟩ := hp
        have : ts.idxOf u < ts.length := List.idxOf_lt_length_iff.mpr (hu u h1)
        rw [length_empty]; omega)
      rw [length_empty] at hl
      refine ⟨r, ?_, fun t ht => ?_⟩
      · unfold ofList
        rw [if_pos (hall.mpr hu), mpUnique_nodup h]
        exact congrArg some e
      · rw [get_mem hw0 h hl ht, hb, bits_empty, Bool.or_false]
        congr 2
        rw [decide_eq_decide, List.mem_map]
        constructor
        · rintro ⟨u, h1, h2⟩
          rwa [idx_inj (ts := ts) ht h2.symm]
        · intro h1; exact ⟨t, h1, rfl⟩
    · rename_i hu
      unfold ofList
      rw [if_neg (by rw [hall]; exact hu)]

/-- **C17 is false with repeated types.** In `type_bitset<A, A, B, C>`, `set<B>()` makes `C` report
true and leaves `B` reporting false. -/
theorem C17_type_bitset_repeated_violated {A B C : T} (hAB : A ≠ B) (hAC : A ≠ C) (hBC : B ≠ C) :
    ∃ r, set [A, A, B, C] [B] true (empty 8 (capacity [A, A, B, C])) = some (.ok r) ∧
      get [A, A, B, C] r B = some (.ok false) ∧ get [A, A, B, C] r C = some (.ok true) := by
  have hu : mpUnique [A, A, B, C] = [A, B, C] := by
    simp [mpUnique, hAB.symm, hAC.symm, hBC.symm]
  have hcap : capacity [A, A, B, C] = 3 := by simp [capacity, hu]
  have i1 : indexOf B [A, A, B, C] = 2 := by simp [indexOf, List.idxOf_cons, beq_eq_false_iff_ne.mpr hAB]
  have i2 : indexOf B [A, B, C] = 1 := by simp [indexOf, List.idxOf_cons, beq_eq_false_iff_ne.mpr hAB]
  have i3 : indexOf C [A, B, C] = 2 := by simp [indexOf, List.idxOf_cons, beq_eq_false_iff_ne.mpr hAC, beq_eq_false_iff_ne.mpr hBC]
  refine ⟨[4#8], ?_, ?_, ?_⟩
  · simp only [set, found, List.all_cons, List.all_nil, i1, hcap, foldOp]
    rfl
  · simp only [get, hu, i2]; rfl
  · simp only [get, hu, i3]; rfl

example : ([1, 2, 3] : List Nat).Nodup := by decide
example : set [1, 2, 3] [3, 1] true (empty 8 3) = some (.ok [5#8]) := by decide

/-- **C17, an unlisted type.** Asking for the bit of a type that is not in the list does not compile. -/
theorem C17_get_unlisted {w : Nat} {ts : List T} (h : ts.Nodup) (s : Words w) {u : T} (hu : u ∉ ts) : get ts s u = none := by
  unfold get indexOf
  rw [mpUnique_nodup h, if_neg (fun h' => hu (List.idxOf_lt_length_iff.mp h'))]

example : get ["a", "b"] ([0#8] : Words 8) "c" = none := C17_get_unlisted (by decide) _ (by decide)

end Verif.TypeBitset
