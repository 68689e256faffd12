import Verif.TypeBitset.Props
import Mathlib.Data.List.Induction

/-!
# `type_bitset` over lists with repeated types (C17)

`operator[]`, the list constructor and `for_each` look a type up in the list without repetitions;
`set`, `reset` and `flip` look it up in the list as written.  The two positions agree exactly for the
types whose first occurrence is preceded by a repetition-free part of the list.
-/

namespace Verif.TypeBitset

open Verif.Bitset Verif.BitOps

variable {T : Type} [DecidableEq T]

theorem uniq_aux (ts : List T) : ∀ acc : List T, acc.Nodup →
    let r := ts.foldl (fun acc t => if t ∈ acc then acc else acc ++ [t]) acc
    r.Nodup ∧ (∀ t, t ∈ r ↔ t ∈ acc ∨ t ∈ ts) ∧ acc <+: r ∧ r.length ≤ acc.length + ts.length := by
  induction ts with
  | nil => intro acc h; simp [h]
  | cons t ts ih =>
    intro acc h
    simp only [List.foldl_cons]
    by_cases ht : t ∈ acc
    · rw [if_pos ht]
      obtain ⟨h1, h2, h3, h4⟩ := ih acc h
      refine ⟨h1, fun x => ?_, h3, by simp only [List.length_cons]; omega⟩
      rw [h2]
      constructor
      · rintro (h | h)
        · exact Or.inl h
        · exact Or.inr (List.mem_cons_of_mem _ h)
      · rintro (h | h)
        · exact Or.inl h
        · rcases List.mem_cons.mp h with rfl | h
          · exact Or.inl ht
          · exact Or.inr h
    · rw [if_neg ht]
      have hn : (acc ++ [t]).Nodup := by
        rw [List.nodup_append]
        refine ⟨h, by simp, ?_⟩
        intro a ha b hb e
        rw [List.mem_singleton] at hb
        subst hb; subst e; exact ht ha
      obtain ⟨h1, h2, h3, h4⟩ := ih _ hn
      refine ⟨h1, fun x => ?_, (List.prefix_append acc [t]).trans h3, by
        simp only [List.length_append, List.length_cons, List.length_nil] at h4 ⊢; omega⟩
      rw [h2]; simp [or_assoc]

theorem nodup_mpUnique (ts : List T) : (mpUnique ts).Nodup := (uniq_aux ts [] (by simp)).1

theorem mem_mpUnique {ts : List T} {t : T} : t ∈ mpUnique ts ↔ t ∈ ts := by
  rw [mpUnique, (uniq_aux ts [] (by simp)).2.1]; simp

theorem length_mpUnique_le (ts : List T) : (mpUnique ts).length ≤ ts.length := by
  have := (uniq_aux ts [] (by simp)).2.2.2
  simpa [mpUnique] using this

theorem mpUnique_append (a b : List T) : mpUnique a <+: mpUnique (a ++ b) := by
  rw [mpUnique, mpUnique, List.foldl_append]
  exact (uniq_aux b _ (uniq_aux a [] (by simp)).1).2.2.1

theorem mpUnique_snoc (a : List T) (t : T) (h : t ∉ a) : mpUnique (a ++ [t]) = mpUnique a ++ [t] := by
  have h' : t ∉ mpUnique a := fun hm => h (mem_mpUnique.mp hm)
  unfold mpUnique at h' ⊢
  rw [List.foldl_append]
  simp only [List.foldl_cons, List.foldl_nil]
  rw [if_neg h']

theorem mpUnique_length_lt {a : List T} (h : ¬ a.Nodup) : (mpUnique a).length < a.length := by
  induction a using List.reverseRecOn with
  | nil => exact absurd (by simp) h
  | append_singleton a t ih =>
    by_cases ht : t ∈ a
    · have : mpUnique (a ++ [t]) = mpUnique a := by
        have h' : t ∈ mpUnique a := mem_mpUnique.mpr ht
        unfold mpUnique at h' ⊢
        rw [List.foldl_append]
        simp only [List.foldl_cons, List.foldl_nil]
        rw [if_pos h']
      rw [this]
      have := length_mpUnique_le a
      simp only [List.length_append, List.length_cons, List.length_nil]; omega
    · have hn : ¬ a.Nodup := by
        intro hn; apply h
        rw [List.nodup_append]
        exact ⟨hn, by simp, fun x hx y hy e => by
          rw [List.mem_singleton] at hy; subst hy; subst e; exact ht hx⟩
      have := ih hn
      rw [mpUnique_snoc a t ht]
      simp only [List.length_append, List.length_cons, List.length_nil]; omega

/-- The position of `u` in the list without repetitions is the number of distinct types before its
first occurrence. -/
theorem idxOf_mpUnique {ts : List T} {u : T} (hu : u ∈ ts) :
    (mpUnique ts).idxOf u = (mpUnique (ts.take (ts.idxOf u))).length := by
  have hlt : ts.idxOf u < ts.length := List.idxOf_lt_length_iff.mpr hu
  have hna : u ∉ ts.take (ts.idxOf u) := by
    intro h
    obtain ⟨i, hi, he⟩ := List.getElem_of_mem h
    rw [List.length_take] at hi
    rw [List.getElem_take] at he
    have := List.not_of_lt_findIdx (p := (· == u)) (xs := ts) (i := i) (by
      rw [← List.idxOf]; omega)
    rw [he] at this; simp at this
  have hsplit : ts = (ts.take (ts.idxOf u) ++ [u]) ++ ts.drop (ts.idxOf u + 1) := by
    conv => lhs; rw [← List.take_append_drop (ts.idxOf u + 1) ts]
    rw [List.take_succ_eq_append_getElem hlt, List.getElem_idxOf hlt]
  have hp := mpUnique_append (ts.take (ts.idxOf u) ++ [u]) (ts.drop (ts.idxOf u + 1))
  rw [← hsplit, mpUnique_snoc _ _ hna] at hp
  obtain ⟨rest, hr⟩ := hp
  have hnm : u ∉ mpUnique (ts.take (ts.idxOf u)) := fun h => hna (mem_mpUnique.mp h)
  rw [← hr, List.append_assoc, List.idxOf_append, if_neg hnm]
  simp

theorem idxOf_mpUnique_le {ts : List T} {u : T} (hu : u ∈ ts) :
    (mpUnique ts).idxOf u ≤ ts.idxOf u := by
  rw [idxOf_mpUnique hu]
  have := length_mpUnique_le (ts.take (ts.idxOf u))
  rw [List.length_take] at this; omega

theorem idxOf_mpUnique_eq_iff {ts : List T} {u : T} (hu : u ∈ ts) :
    (mpUnique ts).idxOf u = ts.idxOf u ↔ (ts.take (ts.idxOf u)).Nodup := by
  have hlt : ts.idxOf u < ts.length := List.idxOf_lt_length_iff.mpr hu
  have hlen : (ts.take (ts.idxOf u)).length = ts.idxOf u := by rw [List.length_take]; omega
  rw [idxOf_mpUnique hu]
  constructor
  · intro h
    by_contra hn
    have := mpUnique_length_lt hn
    omega
  · intro h
    rw [mpUnique_nodup h, hlen]

theorem get_listed {w : Nat} (hw : 0 < w) {ts : List T} {s : Words w}
    (hs : s.length = storageSize w (capacity ts)) {u : T} (hu : u ∈ ts) :
    get ts s u = some (.ok (bits s ((mpUnique ts).idxOf u))) := by
  have hB := storage_bounds hw (capacity ts)
  have hlt : (mpUnique ts).idxOf u < (mpUnique ts).length :=
    List.idxOf_lt_length_iff.mpr (mem_mpUnique.mpr hu)
  have hle := length_mpUnique_le ts
  have hcap : capacity ts = (mpUnique ts).length := rfl
  unfold get indexOf
  rw [if_pos (by omega), get_bits hw (by rw [hs]; omega)]

theorem foldOp_gen {w : Nat} {ts : List T}
    {op : Words w → Nat → Outcome (Words w)} {g : Bool → Bool}
    (hop : ∀ (s : Words w) i, i < s.length * w → ∃ r, op s i = .ok r ∧ r.length = s.length ∧
      ∀ j, bits r j = if j = i then g (bits s j) else bits s j) :
    ∀ (us : List T) (s : Words w), (∀ u ∈ us, ts.idxOf u < s.length * w) →
    ∃ r, foldOp op ts us s = .ok r ∧ r.length = s.length ∧
      ∀ j, bits r j =
        ((us.countP (fun u => ts.idxOf u == j)).rec (bits s j) (fun _ b => g b) : Bool) := by
  intro us
  induction us with
  | nil => intro s _; exact ⟨s, rfl, rfl, fun t => rfl⟩
  | cons u us ih =>
    intro s hu
    obtain ⟨s1, e1, hl1, hb1⟩ := hop s (ts.idxOf u) (hu u (by simp))
    obtain ⟨r, e, hl, hb⟩ := ih s1 (fun v hv => by rw [hl1]; exact hu v (by simp [hv]))
    refine ⟨r, by simp [foldOp, indexOf, e1, e], by omega, fun j => ?_⟩
    rw [hb j, hb1]
    have gen : ∀ (n : Nat) (b : Bool), (n.rec (g b) (fun _ b => g b) : Bool) =
        ((n + 1).rec b (fun _ b => g b) : Bool) := by
      intro n b
      induction n with
      | zero => rfl
      | succ n ihn => show g _ = g _; rw [ihn]
    by_cases hj : j = ts.idxOf u
    · rw [if_pos hj, List.countP_cons_of_pos (by simp [hj]), gen]
    · rw [if_neg hj, List.countP_cons_of_neg (by simpa using Ne.symm hj)]

theorem found_bound {ts us : List T} : found ts us = true ↔ ∀ u ∈ us, ts.idxOf u < capacity ts := by
  unfold found indexOf
  rw [List.all_eq_true]
  simp only [decide_eq_true_eq]

/-- **C17, exact form for every list of types.** `set<Us...>(v)`, `reset<Us...>()` and `flip<Us...>()`
compile exactly when the position of every argument in the list as written is below the number of
distinct types; they then change the types whose position among the distinct types is the position
of an argument in the list as written, and no other type. -/
theorem C17_type_bitset_exact {w : Nat} (hw : StdWidth w) {ts : List T} {s : Words w}
    (hs : s.length = storageSize w (capacity ts)) (us : List T) (hus : us ≠ []) :
    (∀ v, if ∀ u ∈ us, ts.idxOf u < capacity ts then ∃ r, set ts us v s = some (.ok r) ∧
        (∀ t ∈ ts, get ts r t =
          if ∃ u ∈ us, ts.idxOf u = (mpUnique ts).idxOf t then some (.ok v) else get ts s t)
      else set ts us v s = none) ∧
    (if ∀ u ∈ us, ts.idxOf u < capacity ts then ∃ r, reset ts us s = some (.ok r) ∧
        (∀ t ∈ ts, get ts r t =
          if ∃ u ∈ us, ts.idxOf u = (mpUnique ts).idxOf t then some (.ok false) else get ts s t)
      else reset ts us s = none) ∧
    (if ∀ u ∈ us, ts.idxOf u < capacity ts then ∃ r, flip ts us s = some (.ok r) ∧
        (∀ t ∈ ts, ∀ b, get ts s t = some (.ok b) → get ts r t = some (.ok (b ^^ decide
          (us.countP (fun u => ts.idxOf u == (mpUnique ts).idxOf t) % 2 = 1))))
      else flip ts us s = none) := by
  have hw0 := StdWidth.pos hw
  have hB := storage_bounds hw0 (capacity ts)
  have const_rec : ∀ (n : Nat) (v b : Bool), (n.rec b (fun _ _ => v) : Bool) = if 0 < n then v else b := by
    intro n v b; cases n <;> simp <;> rfl
  have hlt : (∀ u ∈ us, ts.idxOf u < capacity ts) → ∀ u ∈ us, ts.idxOf u < s.length * w := by
    intro h u hu
    have := h u hu
    rw [hs]; omega
  refine ⟨fun v => ?_, ?_, ?_⟩
  · split
    · rename_i hu
      obtain ⟨r, e, hl, hb⟩ := foldOp_gen (ts := ts) (op := fun s i => Bitset.set s i v) (g := fun _ => v)
        (fun s i hi => set_spec hw0 hi v) us s (hlt hu)
      refine ⟨r, by simp [set, found_bound.mpr hu, hus, e], fun t ht => ?_⟩
      rw [get_listed hw0 (by omega) ht, get_listed hw0 hs ht, hb, const_rec]
      simp only [List.countP_pos_iff, beq_iff_eq]
      split <;> rfl
    · rename_i hu
      rw [set, if_neg (by rw [found_bound]; exact hu)]
  · split
    · rename_i hu
      obtain ⟨r, e, hl, hb⟩ := foldOp_gen (ts := ts) (op := Bitset.reset) (g := fun _ => false)
        (fun s i hi => reset_spec hw0 hi) us s (hlt hu)
      refine ⟨r, by simp [reset, found_bound.mpr hu, hus, e], fun t ht => ?_⟩
      rw [get_listed hw0 (by omega) ht, get_listed hw0 hs ht, hb, const_rec]
      simp only [List.countP_pos_iff, beq_iff_eq]
      split <;> rfl
    · rename_i hu
      rw [reset, if_neg (by rw [found_bound]; exact hu)]
  · split
    · rename_i hu
      obtain ⟨r, e, hl, hb⟩ := foldOp_gen (ts := ts) (op := Bitset.flip) (g := fun b => !b)
        (fun s i hi => flip_spec hw0 hi) us s (hlt hu)
      refine ⟨r, by simp [flip, found_bound.mpr hu, hus, e], fun t ht b hbt => ?_⟩
      rw [get_listed hw0 hs ht] at hbt
      simp only [Option.some.injEq, Outcome.ok.injEq] at hbt
      rw [get_listed hw0 (by omega) ht, hb, hbt]
      have : ∀ (n : Nat) (b : Bool), (n.rec b (fun _ b => !b) : Bool) = (b ^^ decide (n % 2 = 1)) := by
        intro n b
        induction n with
        | zero => simp; rfl
        | succ n ihn =>
          show (!(n.rec b (fun _ b => !b) : Bool)) = _
          rw [ihn]
          rcases Nat.mod_two_eq_zero_or_one n with h1 | h1
          · simp [h1, show (n + 1) % 2 = 1 by omega]
          · simp [h1, show (n + 1) % 2 = 0 by omega]
      rw [this]
    · rename_i hu
      rw [flip, if_neg (by rw [found_bound]; exact hu)]

/-- The first occurrence of `u` in `ts` exists and no type is repeated before it. -/
def Reachable (ts : List T) (u : T) : Prop := u ∈ ts ∧ (ts.take (ts.idxOf u)).Nodup

/-- **C17, partial, lists with repetitions.** For argument types with no repetition before their first
occurrence — whatever follows — `set` and `reset` change what exactly those types report.  Missing:
the other types, for which it is always false, `C17_repetition_before_violated`. -/
theorem C17_repetition_after_partial {w : Nat} (hw : StdWidth w) {ts : List T} {s : Words w}
    (hs : s.length = storageSize w (capacity ts)) (us : List T) (hus : us ≠ [])
    (hu : ∀ u ∈ us, Reachable ts u) :
    (∀ v, ∃ r, set ts us v s = some (.ok r) ∧
      (∀ t ∈ ts, get ts r t = if t ∈ us then some (.ok v) else get ts s t)) ∧
    (∃ r, reset ts us s = some (.ok r) ∧
      (∀ t ∈ ts, get ts r t = if t ∈ us then some (.ok false) else get ts s t)) ∧
    (∃ r, flip ts us s = some (.ok r) ∧ (∀ t ∈ ts, ∀ b, get ts s t = some (.ok b) →
      get ts r t = some (.ok (b ^^ decide (us.count t % 2 = 1))))) := by
  have heq : ∀ u ∈ us, ts.idxOf u = (mpUnique ts).idxOf u := fun u hm =>
    ((idxOf_mpUnique_eq_iff (hu u hm).1).mpr (hu u hm).2).symm
  have hb : ∀ u ∈ us, ts.idxOf u < capacity ts := by
    intro u hm
    rw [heq u hm]
    exact List.idxOf_lt_length_iff.mpr (mem_mpUnique.mpr (hu u hm).1)
  have hiff : ∀ t ∈ ts, ∀ u ∈ us, (ts.idxOf u = (mpUnique ts).idxOf t ↔ u = t) := by
    intro t ht u hm
    rw [heq u hm]
    exact ⟨fun e => idx_inj (mem_mpUnique.mpr (hu u hm).1) e, fun e => by rw [e]⟩
  have hex : ∀ t ∈ ts, ((∃ u ∈ us, ts.idxOf u = (mpUnique ts).idxOf t) ↔ t ∈ us) := by
    intro t ht
    constructor
    · rintro ⟨u, hm, e⟩
      rw [← (hiff t ht u hm).mp e]; exact hm
    · intro hm
      exact ⟨t, hm, (hiff t ht t hm).mpr rfl⟩
  obtain ⟨h1, h2, h3⟩ := C17_type_bitset_exact hw hs us hus
  rw [if_pos hb] at h2 h3
  refine ⟨fun v => ?_, ?_, ?_⟩
  · have h1 := h1 v
    rw [if_pos hb] at h1
    obtain ⟨r, e, h⟩ := h1
    refine ⟨r, e, fun t ht => ?_⟩
    rw [h t ht]; simp only [hex t ht]
  · obtain ⟨r, e, h⟩ := h2
    refine ⟨r, e, fun t ht => ?_⟩
    rw [h t ht]; simp only [hex t ht]
  · obtain ⟨r, e, h⟩ := h3
    refine ⟨r, e, fun t ht b hbt => ?_⟩
    rw [h t ht b hbt]
    have : us.countP (fun u => ts.idxOf u == (mpUnique ts).idxOf t) = us.count t := by
      unfold List.count
      apply List.countP_congr
      intro u hm
      simp only [beq_iff_eq]
      exact hiff t ht u hm
    rw [this]

/-- **C17 is false for every type with a repetition before it.** If some type is repeated before the
first occurrence of `u`, then `set<U>()` either does not compile although `u` is listed, or leaves
what `u` reports unchanged and makes another listed type report true. -/
theorem C17_repetition_before_violated {w : Nat} (hw : StdWidth w) {ts : List T} {s : Words w}
    (hs : s.length = storageSize w (capacity ts)) {u : T} (hu : u ∈ ts)
    (hrep : ¬ (ts.take (ts.idxOf u)).Nodup) :
    set ts [u] true s = none ∨
    ∃ r, set ts [u] true s = some (.ok r) ∧ get ts r u = get ts s u ∧
      ∃ t ∈ ts, t ≠ u ∧ get ts r t = some (.ok true) := by
  have hne : ts.idxOf u ≠ (mpUnique ts).idxOf u := fun e =>
    hrep ((idxOf_mpUnique_eq_iff hu).mp e.symm)
  obtain ⟨h1, -, -⟩ := C17_type_bitset_exact hw hs [u] (by simp)
  have h1 := h1 true
  split at h1
  · rename_i hb
    right
    obtain ⟨r, e, h⟩ := h1
    refine ⟨r, e, ?_, ?_⟩
    · rw [h u hu, if_neg]
      rintro ⟨v, hv, e⟩
      rw [List.mem_singleton] at hv
      subst hv; exact hne e
    · have hlt : ts.idxOf u < (mpUnique ts).length := hb u (by simp)
      have hmem : (mpUnique ts)[ts.idxOf u] ∈ ts := mem_mpUnique.mp (List.getElem_mem hlt)
      have hidx : (mpUnique ts).idxOf (mpUnique ts)[ts.idxOf u] = ts.idxOf u :=
        List.Nodup.idxOf_getElem (nodup_mpUnique ts) _ hlt
      refine ⟨(mpUnique ts)[ts.idxOf u], hmem, ?_, ?_⟩
      · intro e
        rw [e] at hidx; exact hne hidx.symm
      · rw [h _ hmem, if_pos ⟨u, by simp, hidx.symm⟩]
  · left; exact h1

/-- **C17, list constructor, every list of types.** -/
theorem C17_list_constructor {w : Nat} (hw : StdWidth w) {ts us : List T} :
    if ∀ u ∈ us, u ∈ ts then ∃ r, ofList w ts us = some (.ok r) ∧
        (∀ t ∈ ts, get ts r t = some (.ok (decide (t ∈ us)))) else ofList w ts us = none := by
  have hw0 := StdWidth.pos hw
  have hB := storage_bounds hw0 (capacity ts)
  have hall : (us.all (fun u => indexOf u (mpUnique ts) < capacity ts)) = true ↔ ∀ u ∈ us, u ∈ ts := by
    rw [List.all_eq_true]
    simp only [decide_eq_true_eq, indexOf, capacity, List.idxOf_lt_length_iff, mem_mpUnique]
  split
  · rename_i hu
    obtain ⟨r, e, hl, hb⟩ := placeBits_spec hw0 (us.map fun u => (mpUnique ts).idxOf u)
      (empty w (capacity ts)) (by
        intro p hp
        rw [List.mem_map] at hp
        obtain ⟨u, h1, rfl⟩ := hp
        have : (mpUnique ts).idxOf u < capacity ts :=
          List.idxOf_lt_length_iff.mpr (mem_mpUnique.mpr (hu u h1))
        rw [length_empty]; omega)
    rw [length_empty] at hl
    refine ⟨r, ?_, fun t ht => ?_⟩
    · unfold ofList
      rw [if_pos (hall.mpr hu)]
      exact congrArg some e
    · rw [get_listed hw0 hl ht, hb, bits_empty, Bool.or_false]
      congr 2
      rw [decide_eq_decide, List.mem_map]
      constructor
      · rintro ⟨u, h1, h2⟩
        rwa [idx_inj (ts := mpUnique ts) (mem_mpUnique.mpr ht) h2.symm]
      · intro h1; exact ⟨t, h1, rfl⟩
  · rename_i hu
    unfold ofList
    rw [if_neg (by rw [hall]; exact hu)]

/-- **C17, whole set, every list of types.** `set<>()`, `reset<>()` and `flip<>()` act on every listed
type.  The argument of `set<>(value)` has no effect: `set<>(false)` also sets every type. -/
theorem C17_whole_set {w : Nat} (hw : StdWidth w) {ts : List T} {s : Words w}
    (hs : s.length = storageSize w (capacity ts)) :
    (∀ v, ∃ r, set ts [] v s = some (.ok r) ∧ ∀ t ∈ ts, get ts r t = some (.ok true)) ∧
    (∃ r, reset ts [] s = some (.ok r) ∧ ∀ t ∈ ts, get ts r t = some (.ok false)) ∧
    (∃ r, flip ts [] s = some (.ok r) ∧ ∀ t ∈ ts, ∀ b, get ts s t = some (.ok b) →
      get ts r t = some (.ok (!b))) := by
  have hw0 := StdWidth.pos hw
  have hB := storage_bounds hw0 (capacity ts)
  have hin : ∀ t ∈ ts, (mpUnique ts).idxOf t < s.length * w := by
    intro t ht
    have : (mpUnique ts).idxOf t < capacity ts := List.idxOf_lt_length_iff.mpr (mem_mpUnique.mpr ht)
    rw [hs]; omega
  refine ⟨fun v => ⟨setAll s, by simp [set, found], fun t ht => ?_⟩,
    ⟨resetAll s, by simp [reset, found], fun t ht => ?_⟩,
    ⟨flipAll s, by simp [flip, found], fun t ht b hb => ?_⟩⟩
  · rw [get_listed hw0 (by simpa [setAll] using hs) ht, setAll_bits hw0 (hin t ht)]
  · rw [get_listed hw0 (by simpa [resetAll] using hs) ht, resetAll_bits hw0 (hin t ht)]
  · rw [get_listed hw0 hs ht] at hb
    simp only [Option.some.injEq, Outcome.ok.injEq] at hb
    rw [get_listed hw0 (by simpa [flipAll] using hs) ht, flipAll_bits hw0 (hin t ht), hb]

/-- **C17, traversal, every list of types.** `for_each` calls the function once for each distinct type
that is set (`set_bit`), or not set (`unset_bit`), with its index, in the order of first occurrence. -/
theorem C17_for_each {w : Nat} (hw : StdWidth w) {ts : List T} (hne : ts ≠ []) {s : Words w}
    (hs : s.length = storageSize w (capacity ts)) {σ : Type} (f : σ → T × Nat → σ) (st : σ) (v : Bool) :
    forEach (if v then .setBit else .unsetBit) ts f s st =
      some (.ok (.ok ((((mpUnique ts).zipIdx).filter (fun c => get ts s c.1 == some (.ok v))).foldl f st))) := by
  have hw0 := StdWidth.pos hw
  have hcap : capacity ts = (mpUnique ts).length := rfl
  have hpos : 0 < capacity ts := by
    obtain ⟨t, ht⟩ := List.exists_mem_of_ne_nil ts hne
    exact List.length_pos_iff.mpr (List.ne_nil_of_mem (mem_mpUnique.mpr ht))
  obtain ⟨b, hb, e⟩ := C11_bitset_for_each_partial hw hpos hs (if v then .setBit else .unsetBit)
    (fun (st : Outcome σ) c => do
      let st ← st
      let t ← arrGet (mpUnique ts) c.1
      return f st (t, c.1)) (.ok st)
  unfold forEach
  rw [if_neg (by cases v <;> simp), e, hcap]
  congr 2
  have hget : ∀ i, (hi : i < (mpUnique ts).length) → get ts s (mpUnique ts)[i] = some (.ok (b i)) := by
    intro i hi
    have := length_mpUnique_le ts
    unfold get indexOf
    rw [List.Nodup.idxOf_getElem (nodup_mpUnique ts) i hi, if_pos (by omega), hb i (by omega)]
  have hr : List.range (mpUnique ts).length = (mpUnique ts).zipIdx.map Prod.snd := by
    rw [List.zipIdx_map_snd, List.range_eq_range']
  have hcalls : (Spec.calls (if v then .setBit else .unsetBit) (mpUnique ts).length b).foldl
      (fun (st : Outcome σ) c => do
        let st ← st
        let t ← arrGet (mpUnique ts) c.1
        pure (f st (t, c.1))) (.ok st) =
      ((List.range (mpUnique ts).length).filter (fun i => b i == v)).foldl
      (fun (st : Outcome σ) i => do
        let st ← st
        let t ← arrGet (mpUnique ts) i
        pure (f st (t, i))) (.ok st) := by
    cases v <;> simp [Spec.calls, List.foldl_map]
  refine hcalls.trans ?_
  rw [hr, List.filter_map, List.foldl_map]
  have hfil : (mpUnique ts).zipIdx.filter ((fun i => b i == v) ∘ Prod.snd) =
      (mpUnique ts).zipIdx.filter (fun c => get ts s c.1 == some (.ok v)) := by
    apply List.filter_congr
    rintro ⟨t, i⟩ hti
    obtain ⟨hi, he⟩ := List.getElem?_eq_some_iff.mp (List.mem_zipIdx_iff_getElem?.mp hti)
    simp only [Function.comp_apply] at hi he ⊢
    rw [← he, hget i hi]
    cases b i <;> cases v <;> simp
  rw [hfil]
  have key : ∀ (l : List (T × Nat)) (acc : σ), (∀ c ∈ l, (mpUnique ts)[c.2]? = some c.1) →
      l.foldl (fun (st : Outcome σ) c => do
        let st ← st
        let t ← arrGet (mpUnique ts) c.2
        pure (f st (t, c.2))) (.ok acc) = .ok (l.foldl f acc) := by
    intro l
    induction l with
    | nil => intro acc _; rfl
    | cons c l ih =>
      intro acc hl
      have hc := hl c (by simp)
      simp only [List.foldl_cons, arrGet, hc, Outcome.ok_bind, Outcome.pure_eq_ok]
      exact ih _ (fun j hj => hl j (by simp [hj]))
  refine key _ st (fun c hc => ?_)
  exact List.mem_zipIdx_iff_getElem?.mp (List.mem_filter.mp hc).1

/-- **C17 is false for `for_each<bit>`.** `bitset::for_each` accepts it, `type_bitset::for_each` does
not compile with it, whatever the types. -/
theorem C17_for_each_bit_violated {w : Nat} (hw : StdWidth w) {ts : List T} (hne : ts ≠ []) {s : Words w}
    (hs : s.length = storageSize w (capacity ts)) {σ : Type} (f : σ → T × Nat → σ) (st : σ) :
    forEach .bit ts f s st = none ∧
    ∃ r, Bitset.forEach .bit (capacity ts) (fun (l : List (Nat × Bool)) c => l ++ [c]) s [] = .ok r ∧
      r.length = (mpUnique ts).length := by
  have hpos : 0 < capacity ts := by
    obtain ⟨t, ht⟩ := List.exists_mem_of_ne_nil ts hne
    exact List.length_pos_iff.mpr (List.ne_nil_of_mem (mem_mpUnique.mpr ht))
  obtain ⟨b, -, e⟩ := C11_bitset_for_each_partial hw hpos hs .bit (fun (l : List (Nat × Bool)) c => l ++ [c]) []
  refine ⟨by simp [forEach], _, e, ?_⟩
  have key : ∀ (l acc : List (Nat × Bool)), l.foldl (fun l c => l ++ [c]) acc = acc ++ l := by
    intro l
    induction l with
    | nil => intro acc; simp
    | cons c l ih => intro acc; rw [List.foldl_cons, ih]; simp
  rw [key]
  simp [Spec.calls, capacity]

/-- **C17 is false for types that are not listed, if a type is repeated.** `operator[]` then compiles
for every type that is not in the list; it reads the bit behind the last one, which is undefined if
that is outside the storage and true after `set<>()` if it is not. -/
theorem C17_get_unlisted_violated {w : Nat} (hw : StdWidth w) {ts : List T} (hrep : ¬ ts.Nodup) {s : Words w}
    (hs : s.length = storageSize w (capacity ts)) {u : T} (hu : u ∉ ts) :
    if capacity ts % w = 0 then get ts s u = some .ub
    else (∃ b, get ts s u = some (.ok b)) ∧ ∃ r, set ts [] true s = some (.ok r) ∧ get ts r u = some (.ok true) := by
  have hw0 := StdWidth.pos hw
  have hlt : capacity ts < ts.length := mpUnique_length_lt hrep
  have hidx : (mpUnique ts).idxOf u = capacity ts :=
    List.idxOf_eq_length (fun h => hu (mem_mpUnique.mp h))
  have hB := storage_bounds hw0 (capacity ts)
  have hget : ∀ s' : Words w, get ts s' u = some (Bitset.get s' (capacity ts)) := by
    intro s'
    unfold get indexOf
    rw [hidx, if_pos hlt]
  split
  · rename_i h0
    rw [hget]
    have hd : capacity ts / w = s.length := by
      rw [hs]
      have h1 : capacity ts = capacity ts / w * w := (Nat.div_mul_cancel (Nat.dvd_of_mod_eq_zero h0)).symm
      apply Nat.le_antisymm
      · apply Nat.le_of_mul_le_mul_right _ hw0; omega
      · have : storageSize w (capacity ts) * w < (capacity ts / w + 1) * w := by rw [Nat.add_mul]; omega
        have := Nat.lt_of_mul_lt_mul_right this
        omega
    simp [Bitset.get, arrGet, hd]
  · rename_i h0
    have hin : capacity ts < s.length * w := by
      rw [hs]
      rcases Nat.lt_or_ge (capacity ts) (storageSize w (capacity ts) * w) with h | h
      · exact h
      · have : capacity ts = storageSize w (capacity ts) * w := by omega
        rw [this, Nat.mul_mod_left] at h0
        exact absurd rfl h0
    refine ⟨⟨_, by rw [hget, get_bits hw0 hin]⟩, setAll s, by simp [set, found], ?_⟩
    rw [hget, get_bits hw0 (by simpa [setAll] using hin), setAll_bits hw0 hin]

/-- Types `1, 1, 2` and the type `7`. -/
example : ¬ ([1, 1, 2] : List Nat).Nodup ∧ 7 ∉ [1, 1, 2] ∧
    get [1, 1, 2] ([255#8] : Words 8) 7 = some (.ok true) := by decide

/-- A list with repetitions, a type that is reached and one that is not. -/
example : Reachable [1, 2, 3, 2, 3, 4] 3 ∧ ¬ ([1, 2, 3, 2, 3, 4].take ([1, 2, 3, 2, 3, 4].idxOf 4)).Nodup := by
  unfold Reachable; decide
example : set [1, 2, 3, 2] [3] true (empty 8 3) = some (.ok [4#8]) := by decide
example : set [1, 1, 2, 3] [3] true (empty 8 3) = none := by decide

end Verif.TypeBitset
