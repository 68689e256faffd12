import Verif.AtomicBitset.Spec
import Verif.Conc.Lin
import Verif.BitMask.Props
import Verif.Bitset.PropsVisit
import Mathlib.Tactic.Choose

/-!
# `atomic_bitset` (C38, C39, C41)
-/

namespace Verif.AtomicBitset

open Verif.Conc Verif.Bitset Verif.BitMask Verif.BitOps

theorem std_lt {w : Nat} (h : StdWidth w) : w ≤ 64 ∧ w < szMod := by
  rw [szMod_lit]; rcases h with rfl | rfl | rfl | rfl <;> omega

theorem mask_spec {w N : Nat} (hw : StdWidth w) (hN : 0 < N) (hNw : N ≤ w) :
    ∃ m, mask w N = .ok m ∧ ∀ i, m.getLsbD i = decide (i < N) := by
  obtain ⟨m, e, h⟩ := C01_bit_mask (std_lt hw).2 (Nat.zero_le (N - 1)) (by omega)
  exact ⟨m, e, fun i => by rw [h, decide_eq_decide]; omega⟩

theorem oneWord {w N : Nat} (hw : 0 < w) (hN : 0 < N) (hNw : N ≤ w) : storageSize w N = 1 := by
  have hB := storage_bounds hw N
  have hp := storageSize_pos hw hN
  have : storageSize w N * w < 2 * w := by omega
  have := Nat.lt_of_mul_lt_mul_right this
  omega

theorem toBitset_spec {w N : Nat} (hw : StdWidth w) (hN : 0 < N) (hNw : N ≤ w) (v : BitVec w) :
    ∃ b, toBitset w N v = .ok b ∧ b.length = storageSize w N ∧ ∀ i, i < N → Bitset.get b i = .ok (v.getLsbD i) := by
  have hw0 := StdWidth.pos hw
  have h64 := (std_lt hw).1
  have hB := storage_bounds hw0 N
  obtain ⟨b, e, hl, hb⟩ := ofU64_spec hw (N := N) (by omega) (v.setWidth 64)
  refine ⟨b, e, hl, fun i hi => ?_⟩
  rw [get_bits hw0 (by rw [hl]; omega), hb i (by omega), BitVec.getLsbD_setWidth]
  simp [show i < 64 by omega]

theorem salient_spec {w N : Nat} (hw : StdWidth w) (hN : 0 < N) (hNw : N ≤ w) (c : BitVec w) :
    ∃ v, salient N c = .ok v ∧ ∀ i, v.getLsbD i = (decide (i < N) && c.getLsbD i) := by
  obtain ⟨m, e, h⟩ := mask_spec hw hN hNw
  exact ⟨c &&& m, by simp [salient, e], fun i => by rw [BitVec.getLsbD_and, h, Bool.and_comm]⟩

/-- Each legal operation is a single atomic update with the specified effect and result. -/
theorem impl_single {w N : Nat} (hw : StdWidth w) (hN : 0 < N) (hNw : N ≤ w) (op : Op w) (hl : op.Legal N) :
    ∃ (f : BitVec w → BitVec w) (g : BitVec w → Option (Words w)),
      impl N op = .atomically f (fun c => .ret (g c)) ∧
      (∀ c i, i < N → (f c).getLsbD i = op.after c.getLsbD i) ∧
      (∀ c, if op.returnsPrev then ∃ b, g c = some b ∧ b.length = storageSize w N ∧
        ∀ i, i < N → Bitset.get b i = .ok (c.getLsbD i) else g c = none) := by
  have hw0 := StdWidth.pos hw
  obtain ⟨m, em, hm⟩ := mask_spec hw hN hNw
  have hbs : ∀ v : BitVec w, ∃ b, toBitset w N v = .ok b ∧ b.length = storageSize w N ∧
      ∀ i, i < N → Bitset.get b i = .ok (v.getLsbD i) := toBitset_spec hw hN hNw
  choose bs hbs1 hbs2 hbs3 using hbs
  have hret : ∀ f : BitVec w → BitVec w, returnBitset N (.atomically f .ret) =
      .atomically f (fun c => .ret (some (bs c))) := by
    intro f
    simp [returnBitset, Prog.bind, hbs1, Prog.ofOutcome]
  -- masks of single positions and ranges
  have hone : ∀ pos, pos < w → ∃ v, cshl 1#w pos = .ok v ∧ ∀ i, v.getLsbD i = decide (i = pos) := by
    intro pos h
    exact ⟨_, cshl_ok h, fun i => getLsbD_one_shl h⟩
  have hrange : ∀ l k, l ≤ k → k < w → ∃ v, bitMask w k l = .ok v ∧ ∀ i, v.getLsbD i = decide (l ≤ i ∧ i ≤ k) :=
    fun l k h1 h2 => C01_bit_mask (std_lt hw).2 h1 h2
  have hlen : ∀ l n, 0 < n ∧ l + n ≤ w → lenToMsb l n = l + n - 1 := by
    intro l n ⟨h1, h2⟩
    have := (std_lt hw).1
    exact lenToMsb_eq h1 (by omega)
  -- the three kinds of update
  have hset : ∀ (P : Nat → Prop) [DecidablePred P] (v : BitVec w) (value : Bool), (∀ i, v.getLsbD i = decide (P i)) →
      ∃ (f : BitVec w → BitVec w), (if value then returnBitset N (fetchOr v) else returnBitset N (fetchAnd (~~~v))) =
        .atomically f (fun c => .ret (some (bs c))) ∧
        ∀ c i, i < N → (f c).getLsbD i = if P i then value else c.getLsbD i := by
    intro P _ v value hv
    cases value
    · refine ⟨fun c => c &&& ~~~v, by simpa [fetchAnd] using hret _, fun c i hi => ?_⟩
      rw [BitVec.getLsbD_and, BitVec.getLsbD_not, hv]
      by_cases hP : P i <;> simp [hP, show i < w by omega]
    · refine ⟨fun c => c ||| v, by simpa [fetchOr] using hret _, fun c i hi => ?_⟩
      rw [BitVec.getLsbD_or, hv]
      by_cases hP : P i <;> simp [hP]
  have hflip : ∀ (P : Nat → Prop) [DecidablePred P] (v : BitVec w), (∀ i, v.getLsbD i = decide (P i)) →
      ∃ (f : BitVec w → BitVec w), returnBitset N (fetchXor v) = .atomically f (fun c => .ret (some (bs c))) ∧
        ∀ c i, i < N → (f c).getLsbD i = if P i then !c.getLsbD i else c.getLsbD i := by
    intro P _ v hv
    refine ⟨fun c => c ^^^ v, by simpa [fetchXor] using hret _, fun c i hi => ?_⟩
    rw [BitVec.getLsbD_xor, hv]
    by_cases hP : P i <;> simp [hP]
  have hprev : ∀ c, ∃ b, some (bs c) = some b ∧ b.length = storageSize w N ∧
      ∀ i, i < N → Bitset.get b i = .ok (c.getLsbD i) := fun c => ⟨bs c, rfl, hbs2 c, hbs3 c⟩
  cases op with
  | load =>
    refine ⟨id, fun c => some (bs (c &&& m)), ?_, fun c i _ => rfl, fun c => ?_⟩
    · simp [impl, em, Prog.ofOutcome, Prog.bind, Conc.load, hbs1]
    · refine ⟨_, rfl, hbs2 _, fun i hi => ?_⟩
      rw [hbs3 _ i hi, BitVec.getLsbD_and, hm]; simp [hi]
  | store b =>
    have hB := storage_bounds hw0 N
    obtain ⟨x, hx⟩ : ∃ x, Bitset.to N w true b = some x := by
      unfold Bitset.to
      rw [if_neg (by omega)]
      split <;> exact ⟨_, rfl⟩
    obtain ⟨r, rfl, hr⟩ := C16_bitset_to hw0 (fun _ => rfl) hl hx
    refine ⟨fun _ => r, fun _ => none, ?_, fun c i hi => ?_, fun c => rfl⟩
    · simp [impl, hx, Prog.ofOutcome, Prog.bind, Conc.store]
    · have := (hr i).1 hi
      simp [Op.after, Op.effect, this]
  | set pos value =>
    obtain ⟨v, ev, hv⟩ := hone pos hl
    obtain ⟨f, e, hf⟩ := hset (fun i => i = pos) v value hv
    refine ⟨f, fun c => some (bs c), by simp [impl, ev, Prog.ofOutcome, Prog.bind, e], fun c i hi => ?_, hprev⟩
    rw [hf c i hi]; by_cases h : i = pos <;> simp [Op.after, Op.effect, h]
  | setRange l k value =>
    obtain ⟨v, ev, hv⟩ := hrange l k hl.1 hl.2
    obtain ⟨f, e, hf⟩ := hset (fun i => l ≤ i ∧ i ≤ k) v value hv
    refine ⟨f, fun c => some (bs c), by simp [impl, setRange, ev, Prog.ofOutcome, Prog.bind, e], fun c i hi => ?_, hprev⟩
    rw [hf c i hi]; by_cases h : l ≤ i ∧ i ≤ k <;> simp [Op.after, Op.effect, h]
  | setLen l n value =>
    have hl' := hl
    obtain ⟨v, ev, hv⟩ := hrange l (l + n - 1) (by have := hl.1; omega) (by have := hl.1; have := hl.2; omega)
    obtain ⟨f, e, hf⟩ := hset (fun i => l ≤ i ∧ i < l + n) v value (fun i => by
      rw [hv, decide_eq_decide]; have := hl.1; omega)
    refine ⟨f, fun c => some (bs c), by simp only [impl, hlen l n hl']; simp [setRange, ev, Prog.ofOutcome, Prog.bind, e],
      fun c i hi => ?_, hprev⟩
    rw [hf c i hi]; by_cases h : l ≤ i ∧ i < l + n <;> simp [Op.after, Op.effect, h]
  | setAll =>
    refine ⟨fun _ => m, fun _ => none, by simp [impl, em, Prog.ofOutcome, Prog.bind, Conc.store], fun c i hi => ?_,
      fun c => rfl⟩
    rw [hm]; simp [Op.after, Op.effect, hi]
  | reset pos =>
    obtain ⟨v, ev, hv⟩ := hone pos hl
    obtain ⟨f, e, hf⟩ := hset (fun i => i = pos) v false hv
    simp only [Bool.false_eq_true, if_false] at e
    refine ⟨f, fun c => some (bs c), by simp [impl, ev, Prog.ofOutcome, Prog.bind, e], fun c i hi => ?_, hprev⟩
    rw [hf c i hi]; by_cases h : i = pos <;> simp [Op.after, Op.effect, h]
  | resetRange l k =>
    obtain ⟨v, ev, hv⟩ := hrange l k hl.1 hl.2
    obtain ⟨f, e, hf⟩ := hset (fun i => l ≤ i ∧ i ≤ k) v false hv
    simp only [Bool.false_eq_true, if_false] at e
    refine ⟨f, fun c => some (bs c), by simp [impl, resetRange, ev, Prog.ofOutcome, Prog.bind, e], fun c i hi => ?_, hprev⟩
    rw [hf c i hi]; by_cases h : l ≤ i ∧ i ≤ k <;> simp [Op.after, Op.effect, h]
  | resetLen l n =>
    have hl' := hl
    obtain ⟨v, ev, hv⟩ := hrange l (l + n - 1) (by have := hl.1; omega) (by have := hl.1; have := hl.2; omega)
    obtain ⟨f, e, hf⟩ := hset (fun i => l ≤ i ∧ i < l + n) v false (fun i => by
      rw [hv, decide_eq_decide]; have := hl.1; omega)
    simp only [Bool.false_eq_true, if_false] at e
    refine ⟨f, fun c => some (bs c), by simp only [impl, hlen l n hl']; simp [resetRange, ev, Prog.ofOutcome, Prog.bind, e],
      fun c i hi => ?_, hprev⟩
    rw [hf c i hi]; by_cases h : l ≤ i ∧ i < l + n <;> simp [Op.after, Op.effect, h]
  | resetAll =>
    refine ⟨fun _ => 0#w, fun _ => none, by simp [impl, Prog.bind, Conc.store], fun c i hi => ?_, fun c => rfl⟩
    simp [Op.after, Op.effect]
  | flip pos =>
    obtain ⟨v, ev, hv⟩ := hone pos hl
    obtain ⟨f, e, hf⟩ := hflip (fun i => i = pos) v hv
    refine ⟨f, fun c => some (bs c), by simp [impl, ev, Prog.ofOutcome, Prog.bind, e], fun c i hi => ?_, hprev⟩
    rw [hf c i hi]; by_cases h : i = pos <;> simp [Op.after, Op.effect, h]
  | flipRange l k =>
    obtain ⟨v, ev, hv⟩ := hrange l k hl.1 hl.2
    obtain ⟨f, e, hf⟩ := hflip (fun i => l ≤ i ∧ i ≤ k) v hv
    refine ⟨f, fun c => some (bs c), by simp [impl, flipRange, ev, Prog.ofOutcome, Prog.bind, e], fun c i hi => ?_, hprev⟩
    rw [hf c i hi]; by_cases h : l ≤ i ∧ i ≤ k <;> simp [Op.after, Op.effect, h]
  | flipLen l n =>
    have hl' := hl
    obtain ⟨v, ev, hv⟩ := hrange l (l + n - 1) (by have := hl.1; omega) (by have := hl.1; have := hl.2; omega)
    obtain ⟨f, e, hf⟩ := hflip (fun i => l ≤ i ∧ i < l + n) v (fun i => by
      rw [hv, decide_eq_decide]; have := hl.1; omega)
    refine ⟨f, fun c => some (bs c), by simp only [impl, hlen l n hl']; simp [flipRange, ev, Prog.ofOutcome, Prog.bind, e],
      fun c i hi => ?_, hprev⟩
    rw [hf c i hi]; by_cases h : l ≤ i ∧ i < l + n <;> simp [Op.after, Op.effect, h]
  | flipAll =>
    obtain ⟨f, e, hf⟩ := hflip (fun i => i < N) m hm
    refine ⟨f, fun c => some (bs c), by simp [impl, em, Prog.ofOutcome, Prog.bind, e], fun c i hi => ?_, hprev⟩
    rw [hf c i hi]; simp [Op.after, Op.effect, hi]

/-- The set after a history, from the initial set. -/
def setAfter {w : Nat} (h : List (Event (Op w) (Option (Words w)))) (st : Nat → Bool) : Nat → Bool :=
  h.foldl (fun st e => e.op.after st) st

theorem after_congr {w N : Nat} {op : Op w} {s t : Nat → Bool} (h : ∀ i, i < N → s i = t i) :
    ∀ i, i < N → op.after s i = op.after t i := by
  intro i hi
  unfold Op.after
  rw [h i hi]

theorem setAfter_congr {w N : Nat} : ∀ (h : List (Event (Op w) (Option (Words w)))) {s t : Nat → Bool},
    (∀ i, i < N → s i = t i) → ∀ i, i < N → setAfter h s i = setAfter h t i := by
  intro h
  induction h with
  | nil => intro s t hst; exact hst
  | cons e h ih => intro s t hst; exact ih (after_congr hst)

/-- **C38, linearizability.** For every number of threads, legal operations and schedules, the operations
take effect one after the other in the order of the schedule: every position below `N` of the final value
is what the operations give in that order; every operation that returns a previous value returns the set
just before it; each thread has performed a prefix of its operations, holds the corresponding results, is
never undefined or blocked, and is finished exactly when it has performed them all. -/
theorem C38_atomic_bitset_linearizable {w N : Nat} (hw : StdWidth w) (hN : 0 < N) (hNw : N ≤ w)
    (progs : List (List (Op w))) (hlegal : ∀ ops ∈ progs, ∀ op ∈ ops, op.Legal N) (c0 : BitVec w)
    (sched : List Nat) (s : Sys w (List (Option (Words w)))) (hr : (start (impl N) progs c0).run sched = some s) :
    ∃ h : List (Event (Op w) (Option (Words w))), h.map (·.tid) = sched ∧
      (∀ e ∈ h, e.tid < progs.length) ∧
      (∀ i, i < N → s.cell.getLsbD i = setAfter h c0.getLsbD i) ∧
      (∀ pre e post, h = pre ++ e :: post →
        if e.op.returnsPrev then ∃ b, e.res = some b ∧ b.length = storageSize w N ∧
          ∀ i, i < N → Bitset.get b i = .ok (setAfter pre c0.getLsbD i)
        else e.res = none) ∧
      (∀ t ops, progs[t]? = some ops → ∃ rest, ops = opsOf h t ++ rest ∧
        (rest ≠ [] → (s.step t).isSome) ∧
        (rest = [] ↔ s.threads[t]? = some (.ret (resOf h t)))) := by
  have hone : ∀ op : Op w, ∃ (f : BitVec w → BitVec w) (g : BitVec w → Option (Words w)), op.Legal N →
      impl N op = .atomically f (fun c => .ret (g c)) ∧
      (∀ c i, i < N → (f c).getLsbD i = op.after c.getLsbD i) ∧
      (∀ c, if op.returnsPrev then ∃ b, g c = some b ∧ b.length = storageSize w N ∧
        ∀ i, i < N → Bitset.get b i = .ok (c.getLsbD i) else g c = none) := by
    intro op
    by_cases h : op.Legal N
    · obtain ⟨f, g, h1⟩ := impl_single hw hN hNw op h
      exact ⟨f, g, fun _ => h1⟩
    · exact ⟨id, fun _ => none, fun h' => absurd h' h⟩
  choose f g hfg using hone
  have himpl : ∀ op : Op w, op.Legal N → impl N op = .atomically (f op) (fun c => .ret (g op c)) :=
    fun op h => (hfg op h).1
  obtain ⟨h, h1, hx⟩ := linearizable himpl hlegal hr
  have hallLegal : ∀ e ∈ h, e.op.Legal N := by
    intro e he
    have ht := hx.tids e he
    obtain ⟨rest, h2, _⟩ := hx.threads e.tid progs[e.tid] (List.getElem?_eq_getElem ht)
    refine hlegal _ (List.getElem_mem ht) e.op ?_
    rw [h2]
    exact List.mem_append_left _ (List.mem_map.mpr ⟨e, List.mem_filter.mpr ⟨he, by simp⟩, rfl⟩)
  have hfold : ∀ (k : List (Event (Op w) (Option (Words w)))) (c : BitVec w), (∀ e ∈ k, e.op.Legal N) →
      ∀ i, i < N → (k.foldl (fun c e => f e.op c) c).getLsbD i = setAfter k c.getLsbD i := by
    intro k
    induction k with
    | nil => intro c _ i _; rfl
    | cons e k ih =>
      intro c hk i hi
      rw [List.foldl_cons, ih _ (fun e' he' => hk e' (by simp [he'])) i hi]
      exact setAfter_congr k (fun j hj => (hfg e.op (hk e (by simp))).2.1 c j hj) i hi
  refine ⟨h, h1, hx.tids, fun i hi => ?_, fun pre e post hsplit => ?_, fun t ops ht => ?_⟩
  · rw [hx.cell, hfold h c0 hallLegal i hi]
  · have he : e ∈ h := by rw [hsplit]; simp
    have hpre : ∀ e' ∈ pre, e'.op.Legal N := fun e' he' => hallLegal e' (by rw [hsplit]; simp [he'])
    have hr2 := (hfg e.op (hallLegal e he)).2.2 (pre.foldl (fun c e => f e.op c) c0)
    rw [hx.results pre e post hsplit]
    split
    · rename_i hret
      rw [if_pos hret] at hr2
      obtain ⟨b, hb1, hb2, hb3⟩ := hr2
      exact ⟨b, hb1, hb2, fun i hi => by rw [hb3 i hi, hfold pre c0 hpre i hi]⟩
    · rename_i hret
      rwa [if_neg hret] at hr2
  · obtain ⟨rest, h2, h3⟩ := hx.threads t ops ht
    obtain ⟨h4, h5⟩ := can_step himpl hlegal hx ht
    refine ⟨rest, h2, fun hne => h4 ?_, ?_⟩
    · have := congrArg List.length h2
      rw [List.length_append] at this
      have := List.length_pos_iff.mpr hne
      omega
    · rw [h5]
      constructor
      · rintro rfl; simpa using h2.symm
      · intro h6
        rw [h6] at h2
        simpa using h2

/-- A position depends only on the operations that touch it, in their order. -/
theorem setAfter_touching {w : Nat} (i : Nat) : ∀ (h : List (Event (Op w) (Option (Words w)))) (st : Nat → Bool),
    setAfter h st i = ((h.map (·.op)).filterMap (Op.effect i)).foldl (fun b f => f b) (st i) := by
  intro h
  induction h with
  | nil => intro st; rfl
  | cons e h ih =>
    intro st
    show setAfter h (e.op.after st) i = _
    rw [ih]
    cases he : e.op.effect i <;> simp [he, Op.after]

/-- **C38, determinacy.** The final value of a position is given by the operations that touch it in the
order they took effect, so if only one thread touches the position and that thread finishes, the final
value is the same for every schedule: what that thread's own operations give. -/
theorem C38_atomic_bitset_disjoint {w N : Nat} (hw : StdWidth w) (hN : 0 < N) (hNw : N ≤ w)
    (progs : List (List (Op w))) (hlegal : ∀ ops ∈ progs, ∀ op ∈ ops, op.Legal N) (c0 : BitVec w)
    (sched : List Nat) (s : Sys w (List (Option (Words w)))) (hr : (start (impl N) progs c0).run sched = some s)
    (i t : Nat) (hi : i < N) (ops : List (Op w)) (ht : progs[t]? = some ops)
    (hother : ∀ u, u ≠ t → ∀ ops', progs[u]? = some ops' → ∀ op ∈ ops', op.effect i = none)
    (hdone : ∃ rs, s.threads[t]? = some (.ret rs)) :
    s.cell.getLsbD i = (ops.filterMap (Op.effect i)).foldl (fun b f => f b) (c0.getLsbD i) := by
  obtain ⟨h, h1, htid, h2, _, h4⟩ := C38_atomic_bitset_linearizable hw hN hNw progs hlegal c0 sched s hr
  rw [h2 i hi, setAfter_touching]
  obtain ⟨rest, hops, hstep, hfin⟩ := h4 t ops ht
  have hrest : rest = [] := by
    by_contra hne
    obtain ⟨rs, hrs⟩ := hdone
    have := hstep hne
    simp [Sys.step, hrs] at this
  subst hrest
  rw [List.append_nil] at hops
  have key : ∀ k : List (Event (Op w) (Option (Words w))), (∀ e ∈ k, e.tid ≠ t → e.op.effect i = none) →
      (k.map (·.op)).filterMap (Op.effect i) = (opsOf k t).filterMap (Op.effect i) := by
    intro k
    induction k with
    | nil => intro _; rfl
    | cons e k ih =>
      intro hk
      have ih' := ih (fun e' he' => hk e' (by simp [he']))
      by_cases he : e.tid = t
      · simp only [List.map_cons, opsOf, he, List.filter_cons, beq_self_eq_true, if_true, List.filterMap_cons] at *
        rw [ih']
      · have h0 := hk e (by simp) he
        simp only [List.map_cons, opsOf, List.filter_cons, beq_iff_eq, he, if_false, List.filterMap_cons, h0] at *
        exact ih'
  rw [key h, ← hops]
  intro e he hne
  have hlt := htid e he
  obtain ⟨rest', h5, _⟩ := h4 e.tid progs[e.tid] (List.getElem?_eq_getElem hlt)
  refine hother e.tid hne _ (List.getElem?_eq_getElem hlt) e.op ?_
  rw [h5]
  exact List.mem_append_left _ (List.mem_map.mpr ⟨e, List.mem_filter.mpr ⟨he, by simp⟩, rfl⟩)

/-- **C39.** If position `i` is clear at the start and the only operations that touch it are `set(i)`, then
in every schedule in which at least one of them has happened exactly one of the returned previous values
has position `i` clear: that of the first. -/
theorem C39_atomic_bitset_test_and_set {w N : Nat} (hw : StdWidth w) (hN : 0 < N) (hNw : N ≤ w)
    (progs : List (List (Op w))) (hlegal : ∀ ops ∈ progs, ∀ op ∈ ops, op.Legal N) (c0 : BitVec w)
    (sched : List Nat) (s : Sys w (List (Option (Words w)))) (hr : (start (impl N) progs c0).run sched = some s)
    (i : Nat) (hi : i < N) (hclear : c0.getLsbD i = false)
    (honly : ∀ ops ∈ progs, ∀ op ∈ ops, op = .set i true ∨ op.effect i = none) :
    ∃ h : List (Event (Op w) (Option (Words w))), h.map (·.tid) = sched ∧
      (∀ t ops, progs[t]? = some ops → ∃ rest, ops = opsOf h t ++ rest ∧
        (rest = [] ↔ s.threads[t]? = some (.ret (resOf h t)))) ∧
      ((∃ e ∈ h, e.op = .set i true) → ∃ pre e post, h = pre ++ e :: post ∧ e.op = .set i true ∧
        (∀ e' ∈ pre, e'.op ≠ .set i true) ∧
        (∃ b, e.res = some b ∧ Bitset.get b i = .ok false) ∧
        (∀ e' ∈ post, e'.op = .set i true → ∃ b, e'.res = some b ∧ Bitset.get b i = .ok true)) := by
  obtain ⟨h, h1, htid, _, h3, h4⟩ := C38_atomic_bitset_linearizable hw hN hNw progs hlegal c0 sched s hr
  have hall : ∀ e ∈ h, e.op = .set i true ∨ e.op.effect i = none := by
    intro e he
    have hlt := htid e he
    obtain ⟨rest', h5, _⟩ := h4 e.tid progs[e.tid] (List.getElem?_eq_getElem hlt)
    refine honly _ (List.getElem_mem hlt) e.op ?_
    rw [h5]
    exact List.mem_append_left _ (List.mem_map.mpr ⟨e, List.mem_filter.mpr ⟨he, by simp⟩, rfl⟩)
  refine ⟨h, h1, fun t ops ht => ?_, ?_⟩
  · obtain ⟨rest, a, _, b⟩ := h4 t ops ht
    exact ⟨rest, a, b⟩
  · -- split at the first `set(i)`
    have hval : ∀ (k : List (Event (Op w) (Option (Words w)))) (st : Nat → Bool),
        (∀ e ∈ k, e.op = .set i true ∨ e.op.effect i = none) →
        ((∀ e ∈ k, e.op ≠ .set i true) → setAfter k st i = st i) ∧
        (st i = true → setAfter k st i = true) ∧ ((∃ e ∈ k, e.op = .set i true) → setAfter k st i = true) := by
      intro k
      induction k with
      | nil => intro st _; simp [setAfter]
      | cons e k ih =>
        intro st hk
        obtain ⟨i1, i2, i3⟩ := ih (e.op.after st) (fun e' he' => hk e' (by simp [he']))
        have hstep : setAfter (e :: k) st i = setAfter k (e.op.after st) i := rfl
        rcases hk e (by simp) with he | he
        · have hafter : e.op.after st i = true := by simp [he, Op.after, Op.effect]
          refine ⟨fun h => absurd he (h e (by simp)), fun _ => ?_, fun _ => ?_⟩ <;> rw [hstep] <;> exact i2 hafter
        · have hafter : e.op.after st i = st i := by simp [Op.after, he]
          refine ⟨fun h => ?_, fun h => ?_, fun h => ?_⟩
          · rw [hstep, i1 (fun e' he' => h e' (by simp [he'])), hafter]
          · rw [hstep]; exact i2 (by rw [hafter]; exact h)
          · rw [hstep]
            obtain ⟨e', he', h'⟩ := h
            simp only [List.mem_cons] at he'
            rcases he' with rfl | he'
            · rw [h'] at he; simp [Op.effect] at he
            · exact i3 ⟨e', he', h'⟩
    intro hex
    have hfirst : ∀ k : List (Event (Op w) (Option (Words w))), (∃ e ∈ k, e.op = .set i true) →
        ∃ pre e post, k = pre ++ e :: post ∧ e.op = .set i true ∧ ∀ e' ∈ pre, e'.op ≠ .set i true := by
      intro k
      induction k with
      | nil => rintro ⟨e, he, _⟩; simp at he
      | cons e k ih =>
        intro hk
        by_cases he : e.op = .set i true
        · exact ⟨[], e, k, rfl, he, by simp⟩
        · obtain ⟨pre, e1, post, ha, hb, hc⟩ := ih (by
            obtain ⟨e', he', h'⟩ := hk
            simp only [List.mem_cons] at he'
            rcases he' with rfl | he'
            · exact absurd h' he
            · exact ⟨e', he', h'⟩)
          refine ⟨e :: pre, e1, post, by rw [ha]; rfl, hb, ?_⟩
          intro e' he'
          simp only [List.mem_cons] at he'
          rcases he' with rfl | he'
          · exact he
          · exact hc e' he'
    obtain ⟨pre, e, post, hsplit, he, hpre⟩ := hfirst h hex
    have hpall : ∀ e' ∈ pre, e'.op = .set i true ∨ e'.op.effect i = none :=
      fun e' he' => hall e' (by rw [hsplit]; simp [he'])
    refine ⟨pre, e, post, hsplit, he, hpre, ?_, ?_⟩
    · have := h3 pre e post hsplit
      rw [if_pos (by rw [he]; rfl)] at this
      obtain ⟨b, hb1, _, hb3⟩ := this
      exact ⟨b, hb1, by rw [hb3 i hi, (hval pre _ hpall).1 hpre, hclear]⟩
    · intro e' he' heq
      obtain ⟨p, q, hpq⟩ := List.append_of_mem he'
      have hsplit' : h = (pre ++ e :: p) ++ e' :: q := by rw [hsplit, hpq]; simp
      have := h3 _ e' q hsplit'
      rw [if_pos (by rw [heq]; rfl)] at this
      obtain ⟨b, hb1, _, hb3⟩ := this
      refine ⟨b, hb1, ?_⟩
      rw [hb3 i hi, (hval (pre ++ e :: p) _ (fun e'' he'' => hall e'' (by rw [hsplit']; exact List.mem_append_left _ he''))).2.2
        ⟨e, by simp, he⟩]

/-! ## C41 -/

/-- **C41, observers.** For every stored word, whatever its bits above `N`: `to` holds exactly the
positions below `N`; `to_natural` holds those that fit in the `u` bits of `StorageElem`, so all of them when
`N ≤ u`, as it is for the default `StorageElem`; `[]`, `all`, `any`, `none` and `count` agree with that set. -/
theorem C41_atomic_bitset_observers {w N : Nat} (hw : StdWidth w) (hN : 0 < N) (hNw : N ≤ w) (c : BitVec w) :
    (∀ u, («to» N u c = none ↔ u < N) ∧ (N ≤ u → ∃ r, «to» N u c = some (.ok r) ∧
      ∀ i, r.getLsbD i = (decide (i < N) && c.getLsbD i))) ∧
    (∀ u, ∃ r : BitVec u, toNatural N u c = .ok r ∧
      ∀ i, r.getLsbD i = (decide (i < N ∧ i < u) && c.getLsbD i)) ∧
    (∀ i, i < N → get N c i = .ok (c.getLsbD i)) ∧
    (all N c = .ok (decide (∀ i, i < N → c.getLsbD i = true))) ∧
    (any N c = .ok (decide (∃ i, i < N ∧ c.getLsbD i = true))) ∧
    (none' N c = .ok (decide (∀ i, i < N → c.getLsbD i = false))) ∧
    (count N c = .ok ((List.range N).filter c.getLsbD).length) := by
  obtain ⟨v, ev, hv⟩ := salient_spec hw hN hNw c
  obtain ⟨m, em, hm⟩ := mask_spec hw hN hNw
  obtain ⟨b, eb, hlb, hb⟩ := toBitset_spec hw hN hNw v
  have hzero : v = 0#w ↔ ∀ i, i < N → c.getLsbD i = false := by
    constructor
    · intro h i hi
      have := hv i
      rw [h] at this
      simpa [hi] using this.symm
    · intro h
      apply BitVec.eq_of_getLsbD_eq
      intro i _
      rw [hv]
      by_cases hi : i < N
      · simp [hi, h i hi]
      · simp [hi]
  refine ⟨fun u => ⟨?_, fun hu => ?_⟩, fun u => ⟨v.setWidth u, by simp [toNatural, ev], fun i => ?_⟩, fun i hi => ?_, ?_, ?_, ?_, ?_⟩
  · unfold «to»; split <;> simp <;> omega
  · refine ⟨v.setWidth u, by simp [«to», hu, ev], fun i => ?_⟩
    rw [BitVec.getLsbD_setWidth, hv]
    by_cases hi : i < N
    · simp [show i < u by omega]
    · simp [hi]
  · rw [BitVec.getLsbD_setWidth, hv]
    by_cases hi : i < N <;> by_cases hu : i < u <;> simp [hi, hu]
  · simp only [get, ev, Outcome.ok_bind, eb]
    rw [hb i hi, hv]; simp [hi]
  · simp only [all, ev, em, Outcome.ok_bind, Outcome.pure_eq_ok]
    congr 1
    rw [Bool.eq_iff_iff]
    simp only [beq_iff_eq, decide_eq_true_eq]
    constructor
    · intro h i hi
      have := hv i
      rw [h, hm] at this
      simpa [hi] using this.symm
    · intro h
      apply BitVec.eq_of_getLsbD_eq
      intro i _
      rw [hv, hm]
      by_cases hi : i < N
      · simp [hi, h i hi]
      · simp [hi]
  · simp only [any, ev, Outcome.ok_bind, Outcome.pure_eq_ok]
    congr 1
    rw [Bool.eq_iff_iff]
    simp only [bne_iff_ne, decide_eq_true_eq, ne_eq, hzero]
    constructor
    · intro h
      by_contra hn
      exact h (fun i hi => by
        by_contra h1
        exact hn ⟨i, hi, by simpa using h1⟩)
    · rintro ⟨i, hi, h1⟩ h2
      rw [h2 i hi] at h1; cases h1
  · simp only [none', ev, Outcome.ok_bind, Outcome.pure_eq_ok]
    congr 1
    rw [Bool.eq_iff_iff]
    simp only [beq_iff_eq, decide_eq_true_eq, hzero]
  · simp only [count, ev, Outcome.ok_bind, Outcome.pure_eq_ok]
    congr 1
    rw [C07_popcount hw]
    have h1 : (List.range w).filter v.getLsbD = positions w v.getLsbD := rfl
    have h2 : (List.range N).filter c.getLsbD = positions N c.getLsbD := rfl
    rw [h1, h2, positions_extend hNw (fun i hi _ => by rw [hv]; simp [show ¬ i < N by omega])]
    exact congrArg _ (positions_congr (fun i hi => by rw [hv]; simp [hi]))

/-- The characters of the string constructor. -/
theorem strLoop_bits {w : Nat} (hw : 0 < w) (one : Char) : ∀ (cs : List Char) (k : Nat) (ret : BitVec w),
    ∃ r, strLoop one cs (1#w <<< k) ret = .ok r ∧ ∀ i, r.getLsbD i =
      (ret.getLsbD i || (decide (k ≤ i ∧ i < w) && decide (cs[i - k]? = some one))) := by
  intro cs
  induction cs with
  | nil => intro k ret; exact ⟨ret, rfl, fun i => by simp⟩
  | cons c cs ih =>
    intro k ret
    have hsh : cshl (1#w <<< k) 1 = .ok (1#w <<< (k + 1)) := by
      unfold cshl
      rw [if_pos (by omega), BitVec.shiftLeft_add]
    obtain ⟨r, e, hr⟩ := ih (k + 1) (if c == one then ret ||| (1#w <<< k) else ret)
    refine ⟨r, by simp only [strLoop, hsh, Outcome.ok_bind, e], fun i => ?_⟩
    rw [hr]
    have hbit : (1#w <<< k).getLsbD i = decide (i = k ∧ i < w) := by
      by_cases hk : k < w
      · rw [getLsbD_one_shl hk, decide_eq_decide]; omega
      · rw [BitVec.getLsbD_shiftLeft]; rw [eq_comm, decide_eq_false_iff_not.mpr (by omega)]
        by_cases h1 : i < w
        · simp [show i < k by omega]
        · simp [h1]
    by_cases hik : i = k
    · subst hik
      simp only [Nat.sub_self, List.getElem?_cons_zero, Option.some.injEq, Nat.le_refl, true_and,
        show ¬ (i + 1 ≤ i) by omega, false_and, decide_false, Bool.false_and, Bool.or_false]
      by_cases hc : c = one
      · simp [hc, BitVec.getLsbD_or, hbit]
      · simp [hc]
    · have h1 : (if c == one then ret ||| (1#w <<< k) else ret).getLsbD i = ret.getLsbD i := by
        split
        · rw [BitVec.getLsbD_or, hbit]; simp [hik]
        · rfl
      rw [h1]
      congr 1
      by_cases hlt : k < i
      · obtain ⟨d, rfl⟩ : ∃ d, i = k + 1 + d := ⟨i - (k + 1), by omega⟩
        rw [show k + 1 + d - (k + 1) = d by omega, show k + 1 + d - k = d + 1 by omega, List.getElem?_cons_succ]
        simp [show k ≤ k + 1 + d by omega]
      · simp [show ¬ (k + 1 ≤ i) by omega, show ¬ (k ≤ i) by omega]

/-- **C41, constructors.** The observable set is: the low bits of a value, the listed positions, all
positions, or the positions of the chosen character counted from the end of the selected part of the
string. -/
theorem C41_atomic_bitset_constructors {w N : Nat} (hw : StdWidth w) (hN : 0 < N) (hNw : N ≤ w) :
    (∀ v : BitVec 64, ∃ c, ofValue w N v = .ok c ∧ ∀ i, i < N → get N c i = .ok (v.getLsbD i)) ∧
    (∀ ps : List Nat, (∀ p ∈ ps, p < w) → ∃ c, ofPlaceBits w ps = .ok c ∧
      ∀ i, i < N → get N c i = .ok (decide (i ∈ ps))) ∧
    (∃ c, ofAllBits w N = .ok c ∧ ∀ i, i < N → get N c i = .ok true) ∧
    (∀ (str : List Char) (pos n : Nat) (one : Char), pos ≤ str.length →
      ∃ c, ofString w N str pos n one = .ok c ∧ ∀ i, i < N →
        get N c i = .ok (decide ((((str.drop pos).take n).take N).reverse[i]? = some one))) := by
  obtain ⟨m, em, hm⟩ := mask_spec hw hN hNw
  have hget : ∀ (c : BitVec w) i, i < N → get N c i = .ok (c.getLsbD i) :=
    fun c => (C41_atomic_bitset_observers hw hN hNw c).2.2.1
  have h64 := (std_lt hw).1
  refine ⟨fun v => ?_, fun ps hps => ?_, ⟨m, em, fun i hi => by rw [hget m i hi, hm]; simp [hi]⟩,
    fun str pos n one hpos => ?_⟩
  · refine ⟨_, by simp [ofValue, em]; rfl, fun i hi => ?_⟩
    rw [hget _ i hi]
    simp [hm, hi, show i < w by omega, show i < 64 by omega]
  · have : ∃ c, ofPlaceBits w ps = .ok c ∧ ∀ i, c.getLsbD i = decide (i ∈ ps) := by
      induction ps with
      | nil => exact ⟨_, rfl, by simp⟩
      | cons p ps ih =>
        obtain ⟨c, e, hc⟩ := ih (fun q hq => hps q (by simp [hq]))
        have hp := hps p (by simp)
        refine ⟨(1#w <<< p) ||| c, by simp [ofPlaceBits, cshl_ok hp, e], fun i => ?_⟩
        rw [BitVec.getLsbD_or, getLsbD_one_shl hp, hc]
        simp [Bool.decide_or]
    obtain ⟨c, e, hc⟩ := this
    exact ⟨c, e, fun i hi => by rw [hget c i hi, hc]⟩
  · obtain ⟨r, e, hr⟩ := strLoop_bits (StdWidth.pos hw) one
      ((str.drop pos).take (min (min n (str.length - pos)) N)).reverse 0 0#w
    refine ⟨r, ?_, fun i hi => ?_⟩
    · unfold ofString
      rw [if_neg (by omega)]
      simpa using e
    · rw [hget r i hi, hr]
      have : (str.drop pos).take (min (min n (str.length - pos)) N) = ((str.drop pos).take n).take N := by
        rw [List.take_take, List.take_eq_take_iff, List.length_drop]; omega
      rw [this]
      simp [show i < w by omega]

/-- Threads that set two different positions and one that clears a range, in one of the schedules. -/
example : ((start (impl 5) [[Op.set 0 true, .set 1 true], [.resetRange 2 4]] 0b11100#8).run [0, 1, 0]).map (·.cell) =
    some 0b00011#8 := by decide
example : ∀ op ∈ [Op.set 0 true, .set 1 true, (.resetRange 2 4 : Op 8)], op.Legal 5 := by
  simp [Op.Legal]

/-- **C41, no bits.** An `atomic_bitset` of no bits does not compile: its mask (atomic_bitset.hpp:40) would have a
highest position of `N - 1`, the largest `size_t`. So `0 < N` above excludes no bitset. -/
theorem C41_no_bits_rejected {w : Nat} (hw : StdWidth w) : bitMaskStatic w (szDec 0) 0 = none := by
  have h := std_lt hw
  rw [(C01_bit_mask_static h.2).1]
  simp only [szDec, if_true]
  omega

example : StdWidth 32 := by unfold StdWidth; omega

end Verif.AtomicBitset
