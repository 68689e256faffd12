import Verif.AtomicBitset.Single
import Verif.AtomicBitset.Props

/-!
# An `atomic_bitset` used by one thread answers as a `bitset` (C135)
-/

namespace Verif.AtomicBitset

open Verif.Conc Verif.Bitset Verif.BitOps

/-! ## Specification: a set of positions below `N` -/

/-- The set a constructor gives. -/
def Make.start (N : Nat) : Make → Nat → Bool
  | .zero, _ => false
  | .value v, i => v.getLsbD i
  | .place ps, i => decide (i ∈ ps)
  | .all, _ => true
  | .str s pos n one, i => decide ((((s.drop pos).take n).take N).reverse[i]? = some one)

/-- The set after a call. -/
def Cmd.after (st : Nat → Bool) : Cmd → Nat → Bool
  | .store ps, i => decide (i ∈ ps)
  | .set j v, i => if i = j then v else st i
  | .setRange l m v, i => if l ≤ i ∧ i ≤ m then v else st i
  | .setLen l n v, i => if l ≤ i ∧ i < l + n then v else st i
  | .setAll, _ => true
  | .reset j, i => if i = j then false else st i
  | .resetRange l m, i => if l ≤ i ∧ i ≤ m then false else st i
  | .resetLen l n, i => if l ≤ i ∧ i < l + n then false else st i
  | .resetAll, _ => false
  | .flip j, i => if i = j then !st i else st i
  | .flipAll, i => !st i
  | _, i => st i

/-- The number whose binary digits are the set. -/
def number (st : Nat → Bool) : Nat → Nat
  | 0 => 0
  | n + 1 => (if st n then 2 ^ n else 0) + number st n

/-- What the caller learns from a call on the set `st`. -/
def Cmd.answer (N : Nat) (st : Nat → Bool) : Cmd → Ans
  | .store _ | .setAll | .resetAll => .done
  | .get i => .bool (st i)
  | .all => .bool (decide (∀ i, i < N → st i = true))
  | .any => .bool (decide (∃ i, i < N ∧ st i = true))
  | .none => .bool (decide (∀ i, i < N → st i = false))
  | .count => .num ((List.range N).filter st).length
  | .to u _ => if u < N then .rejected else .num (number st N)
  | _ => .was ((List.range N).map st)

/-- What the caller learns from a history. -/
def answers (N : Nat) : List Cmd → (Nat → Bool) → List Ans
  | [], _ => []
  | c :: cs, st => c.answer N st :: answers N cs (c.after st)

/-- Arguments within the bitset. -/
def Make.Within (N : Nat) : Make → Prop
  | .place ps => ∀ p ∈ ps, p < N
  | .str s pos _ _ => pos ≤ s.length
  | _ => True

/-- Positions below `N`, ranges not empty and below `N`, and results of `to` no narrower than a word of the bitset. -/
def Cmd.Within (w N : Nat) : Cmd → Prop
  | .store ps => ∀ p ∈ ps, p < N
  | .set i _ | .reset i | .flip i | .get i => i < N
  | .setRange l m _ | .resetRange l m => l ≤ m ∧ m < N
  | .setLen l n _ | .resetLen l n => 0 < n ∧ l + n ≤ N
  | .to u same => (N ≤ u → w ≤ u) ∧ (same = true → u = w)
  | _ => True

/-! ## Lemmas -/

theorem number_lt (st : Nat → Bool) : ∀ n, number st n < 2 ^ n := by
  intro n
  induction n with
  | zero => simp [number]
  | succ n ih => rw [number, Nat.pow_succ]; split <;> omega

theorem number_testBit (st : Nat → Bool) : ∀ n i, (number st n).testBit i = (decide (i < n) && st i) := by
  intro n
  induction n with
  | zero => simp [number]
  | succ n ih =>
    intro i
    rcases Nat.lt_trichotomy i n with h | h | h
    · rw [number]
      split
      · rw [Nat.testBit_two_pow_add_gt h, ih]; simp [h, show i < n + 1 by omega]
      · rw [Nat.zero_add, ih]; simp [h, show i < n + 1 by omega]
    · subst h
      rw [number]
      have h0 : (number st i).testBit i = false := Nat.testBit_lt_two_pow (number_lt st i)
      split
      · rename_i hs; rw [Nat.testBit_two_pow_add_eq, h0]; simp [hs]
      · rename_i hs; rw [Nat.zero_add, h0]; simp [hs]
    · have : number st (n + 1) < 2 ^ i :=
        Nat.lt_of_lt_of_le (number_lt st (n + 1)) (Nat.pow_le_pow_right (by omega) h)
      rw [Nat.testBit_lt_two_pow this]; simp; omega

theorem toNat_number {u N : Nat} {r : BitVec u} {st : Nat → Bool} (h : ∀ i, r.getLsbD i = (decide (i < N) && st i)) :
    r.toNat = number st N := by
  apply Nat.eq_of_testBit_eq
  intro i
  rw [number_testBit, ← h i]; rfl

theorem readOut_ok {w : Nat} {b : Words w} {st : Nat → Bool} : ∀ {n : Nat}, (∀ i, i < n → Bitset.get b i = .ok (st i)) →
    readOut b n = .ok ((List.range n).map st) := by
  intro n
  induction n with
  | zero => intro _; rfl
  | succ n ih =>
    intro h
    simp [readOut, ih (fun i hi => h i (by omega)), h n (by omega), List.range_succ]

/-- The bitset holds the set. -/
def Holds {w : Nat} (N : Nat) (s : Words w) (st : Nat → Bool) : Prop :=
  s.length = storageSize w N ∧ ∀ i, i < N → bits s i = st i

theorem Holds.get {w N : Nat} (hw : 0 < w) {s : Words w} {st : Nat → Bool} (h : Holds N s st) :
    ∀ i, i < N → Bitset.get s i = .ok (st i) := by
  intro i hi
  have hB := storage_bounds hw N
  rw [get_bits hw (by rw [h.1]; omega), h.2 i hi]

theorem place_holds {w N : Nat} (hw : 0 < w) {ps : List Nat} (h : ∀ p ∈ ps, p < N) :
    ∃ s : Words w, Bitset.placeBits ps (Bitset.empty w N) = .ok s ∧ Holds N s (fun i => decide (i ∈ ps)) := by
  have hB := storage_bounds hw N
  obtain ⟨r, e, hl, hb⟩ := placeBits_spec hw ps (Bitset.empty w N) (fun p hp => by
    rw [length_empty]; have := h p hp; omega)
  exact ⟨r, e, by rw [hl, length_empty], fun i _ => by rw [hb, bits_empty, Bool.or_false]⟩

theorem bmake_holds {w N : Nat} (hw : StdWidth w) (hN : 0 < N) (mk : Make) (h : mk.Within N) :
    ∃ s : Words w, bmake w N mk = .ok s ∧ Holds N s (mk.start N) := by
  have hw0 := StdWidth.pos hw
  have hB := storage_bounds hw0 N
  cases mk with
  | zero => exact ⟨_, rfl, length_empty, fun i _ => bits_empty⟩
  | value v =>
    obtain ⟨r, e, hl, hb⟩ := ofU64_spec hw (N := N) (by omega) v
    exact ⟨r, e, hl, fun i hi => hb i (by omega)⟩
  | place ps => exact place_holds hw0 h
  | all =>
    obtain ⟨r, e, hl, hb⟩ := allBits_spec hw0 N
    exact ⟨r, e, hl, fun i hi => by rw [hb]; simp [Make.start, hi]⟩
  | str s pos n one =>
    obtain ⟨r, e, hl, hb⟩ := ofString_spec hw0 (N := N) (n := n) one h
    exact ⟨r, e, hl, fun i _ => by rw [hb]; rfl⟩

theorem bchange_ok {w N : Nat} (hw : 0 < w) {s r : Words w} {st : Nat → Bool} (h : Holds N s st) :
    bchange N s (.ok r) = .ok (.was ((List.range N).map st), r) := by
  simp [bchange, readOut_ok (h.get hw)]

/-- One call on the bitset. -/
theorem bstep_ok {w N : Nat} (hw : StdWidth w) (h64 : N ≤ 64) {s : Words w} {st : Nat → Bool} (h : Holds N s st)
    (c : Cmd) (hc : c.Within w N) : ∃ s', bstep N c s = .ok (c.answer N st, s') ∧ Holds N s' (c.after st) := by
  have hw0 := StdWidth.pos hw
  have hB := storage_bounds hw0 N
  have hlen := h.1
  have hget := h.get hw0
  cases c with
  | load => exact ⟨s, bchange_ok hw0 h, h⟩
  | store ps =>
    obtain ⟨r, e, hr⟩ := place_holds (w := w) hw0 (N := N) (ps := ps) hc
    exact ⟨r, by simp [bstep, e, Cmd.answer], hr⟩
  | set j v =>
    obtain ⟨r, e, hl, hb⟩ := set_spec hw0 (s := s) (i := j) (by rw [hlen]; have : j < N := hc; omega) v
    exact ⟨r, by simp only [bstep, e]; exact bchange_ok hw0 h, by rw [hl, hlen], fun i hi => by rw [hb, h.2 i hi]; rfl⟩
  | setRange l m v =>
    obtain ⟨r, e, hl, hb⟩ := setRange_spec hw0 (s := s) (l := l) (m := m) (Nat.div_le_div_right hc.1)
      (by rw [hlen]; have := hc.2; omega) v
    exact ⟨r, by simp only [bstep, e]; exact bchange_ok hw0 h, by rw [hl, hlen], fun i hi => by rw [hb, h.2 i hi]; rfl⟩
  | setLen l n v =>
    obtain ⟨r, e, hl, hb⟩ := setLen_spec hw0 (s := s) (l := l) hc.1 (by rw [hlen]; have := hc.2; omega)
      (by have := hc.2; omega) v
    exact ⟨r, by simp only [bstep, e]; exact bchange_ok hw0 h, by rw [hl, hlen], fun i hi => by rw [hb, h.2 i hi]; rfl⟩
  | setAll => exact ⟨Bitset.setAll s, rfl, by simpa [Bitset.setAll] using hlen, fun i hi => setAll_bits hw0 (by rw [hlen]; omega)⟩
  | reset j =>
    obtain ⟨r, e, hl, hb⟩ := reset_spec hw0 (s := s) (i := j) (by rw [hlen]; have : j < N := hc; omega)
    exact ⟨r, by simp only [bstep, e]; exact bchange_ok hw0 h, by rw [hl, hlen], fun i hi => by
      rw [hb, h.2 i hi]; by_cases hj : i = j <;> simp [Cmd.after, hj]⟩
  | resetRange l m =>
    obtain ⟨r, e, hl, hb⟩ := setRange_spec hw0 (s := s) (l := l) (m := m) (Nat.div_le_div_right hc.1)
      (by rw [hlen]; have := hc.2; omega) false
    exact ⟨r, by simp only [bstep, Bitset.resetRange, e]; exact bchange_ok hw0 h, by rw [hl, hlen], fun i hi => by
      rw [hb, h.2 i hi]; rfl⟩
  | resetLen l n =>
    obtain ⟨r, e, hl, hb⟩ := setLen_spec hw0 (s := s) (l := l) hc.1 (by rw [hlen]; have := hc.2; omega)
      (by have := hc.2; omega) false
    exact ⟨r, by simp only [bstep, Bitset.resetLen, e]; exact bchange_ok hw0 h, by rw [hl, hlen], fun i hi => by
      rw [hb, h.2 i hi]; rfl⟩
  | resetAll => exact ⟨Bitset.resetAll s, rfl, by simpa [Bitset.resetAll] using hlen, fun i hi => resetAll_bits hw0 (by rw [hlen]; omega)⟩
  | flip j =>
    obtain ⟨r, e, hl, hb⟩ := flip_spec hw0 (s := s) (i := j) (by rw [hlen]; have : j < N := hc; omega)
    exact ⟨r, by simp only [bstep, e]; exact bchange_ok hw0 h, by rw [hl, hlen], fun i hi => by
      rw [hb, h.2 i hi]; by_cases hj : i = j <;> simp [Cmd.after, hj]⟩
  | flipAll =>
    exact ⟨Bitset.flipAll s, bchange_ok hw0 h, by simpa [Bitset.flipAll] using hlen, fun i hi => by
      rw [flipAll_bits hw0 (by rw [hlen]; omega), h.2 i hi]; rfl⟩
  | get i => exact ⟨s, by simp [bstep, hget i hc, Cmd.answer], h⟩
  | all =>
    obtain ⟨⟨r, e, hr⟩, _, _⟩ := C10_bitset_predicates hw hlen
    refine ⟨s, ?_, h⟩
    simp only [bstep, e, Outcome.ok_bind, Outcome.pure_eq_ok, Cmd.answer]
    congr 3
    rw [Bool.eq_iff_iff, hr, decide_eq_true_iff]
    exact forall_congr' fun i => forall_congr' fun hi => by rw [hget i hi]; simp
  | any =>
    obtain ⟨_, ⟨r, e, hr⟩, _⟩ := C10_bitset_predicates hw hlen
    refine ⟨s, ?_, h⟩
    simp only [bstep, e, Outcome.ok_bind, Outcome.pure_eq_ok, Cmd.answer]
    congr 3
    rw [Bool.eq_iff_iff, hr, decide_eq_true_iff]
    exact exists_congr fun i => and_congr_right fun hi => by rw [hget i hi]; simp
  | none =>
    obtain ⟨_, _, ⟨r, e, hr⟩⟩ := C10_bitset_predicates hw hlen
    refine ⟨s, ?_, h⟩
    simp only [bstep, e, Outcome.ok_bind, Outcome.pure_eq_ok, Cmd.answer]
    congr 3
    rw [Bool.eq_iff_iff, hr, decide_eq_true_iff]
    exact forall_congr' fun i => forall_congr' fun hi => by rw [hget i hi]; simp
  | count =>
    refine ⟨s, ?_, h⟩
    simp only [bstep, C10_bitset_count hw hlen, Outcome.ok_bind, Outcome.pure_eq_ok, Cmd.answer]
    congr 4
    exact List.filter_congr fun i hi => by
      rw [hget i (by simpa using hi)]; cases st i <;> rfl
  | «to» u same =>
    refine ⟨s, ?_, h⟩
    by_cases hu : u < N
    · simp [bstep, Bitset.to, hu, Cmd.answer]
    · obtain ⟨x, hx⟩ : ∃ x, Bitset.to N u same s = some x := by
        unfold Bitset.to
        rw [if_neg (by have := hc.1 (by omega); omega)]
        split <;> exact ⟨_, rfl⟩
      obtain ⟨r, rfl, hr⟩ := C16_bitset_to hw0 hc.2 hlen hx
      have : r.toNat = number st N := toNat_number fun i => by
        by_cases hi : i < N
        · have := (hr i).1 hi
          rw [hget i hi, Outcome.ok.injEq] at this
          simp [hi, this]
        · simp [hi, (hr i).2 (by omega)]
      simp [bstep, hx, Cmd.answer, hu, this]

/-- The cell holds the set. -/
def CellHolds {a : Nat} (N : Nat) (c : BitVec a) (st : Nat → Bool) : Prop := ∀ i, i < N → c.getLsbD i = st i

theorem amake_holds {a N : Nat} (ha : StdWidth a) (hN : 0 < N) (hNa : N ≤ a) (mk : Make) (h : mk.Within N) :
    ∃ c : BitVec a, amake a N mk = .ok c ∧ CellHolds N c (mk.start N) := by
  have hget : ∀ (c : BitVec a) i, i < N → get N c i = .ok (c.getLsbD i) :=
    fun c => (C41_atomic_bitset_observers ha hN hNa c).2.2.1
  obtain ⟨h1, h2, h3, h4⟩ := C41_atomic_bitset_constructors ha hN hNa
  cases mk with
  | zero => exact ⟨0#a, rfl, fun i _ => by simp [Make.start]⟩
  | value v =>
    obtain ⟨c, e, hc⟩ := h1 v
    exact ⟨c, e, fun i hi => by have := hc i hi; rw [hget c i hi, Outcome.ok.injEq] at this; exact this⟩
  | place ps =>
    obtain ⟨c, e, hc⟩ := h2 ps (fun p hp => by have := h p hp; omega)
    exact ⟨c, e, fun i hi => by have := hc i hi; rw [hget c i hi, Outcome.ok.injEq] at this; exact this⟩
  | all =>
    obtain ⟨c, e, hc⟩ := h3
    exact ⟨c, e, fun i hi => by have := hc i hi; rw [hget c i hi, Outcome.ok.injEq] at this; exact this⟩
  | str s pos n one =>
    obtain ⟨c, e, hc⟩ := h4 s pos n one h
    exact ⟨c, e, fun i hi => by have := hc i hi; rw [hget c i hi, Outcome.ok.injEq] at this; exact this⟩

theorem acall_ok {a N : Nat} (ha : StdWidth a) (hN : 0 < N) (hNa : N ≤ a) {c : BitVec a} {st : Nat → Bool}
    (h : CellHolds N c st) (op : Op a) (hl : op.Legal N) :
    ∃ c', acall N op c = .ok (if op.returnsPrev then .was ((List.range N).map st) else .done, c') ∧
      CellHolds N c' (op.after st) := by
  obtain ⟨f, g, e, hf, hg⟩ := impl_single ha hN hNa op hl
  refine ⟨f c, ?_, fun i hi => ?_⟩
  · have hg := hg c
    simp only [acall, e, alone, Outcome.ok_bind]
    split at hg
    · rename_i hr
      obtain ⟨b, e1, e2, e3⟩ := hg
      simp only [e1, if_true]
      rw [readOut_ok (st := st) (fun i hi => by rw [e3 i hi, h i hi])]
      simp [hr]
    · rename_i hr
      simp only [hg]
      simp [hr]
  · rw [hf c i hi]
    exact after_congr h i hi

/-- One call on the atomic bitset. -/
theorem astep_ok {w a N : Nat} (ha : StdWidth a) (hN : 0 < N) (hNa : N ≤ a) {c : BitVec a} {st : Nat → Bool}
    (h : CellHolds N c st) (cmd : Cmd) (hc : cmd.Within w N) :
    ∃ c', astep N cmd c = .ok (cmd.answer N st, c') ∧ CellHolds N c' (cmd.after st) := by
  have ha0 := StdWidth.pos ha
  obtain ⟨o1, _, o3, o4, o5, o6, o7⟩ := C41_atomic_bitset_observers ha hN hNa c
  have step : ∀ op : Op a, op.Legal N → astep N cmd c = acall N op c → (∀ i, i < N → op.after st i = cmd.after st i) →
      (if op.returnsPrev then Ans.was ((List.range N).map st) else .done) = cmd.answer N st →
      ∃ c', astep N cmd c = .ok (cmd.answer N st, c') ∧ CellHolds N c' (cmd.after st) := by
    intro op h1 h2 h3 h4
    obtain ⟨c', e, hc'⟩ := acall_ok ha hN hNa h op h1
    exact ⟨c', by rw [h2, e, h4], fun i hi => by rw [hc' i hi, h3 i hi]⟩
  have ite_after : ∀ (P : Prop) [Decidable P] (f : Bool → Bool) (x : Bool),
      (match (if P then some f else Option.none) with | Option.none => x | some g => g x) = if P then f x else x := by
    intro P _ f x; by_cases hP : P <;> simp [hP]
  cases cmd with
  | load => exact step .load trivial rfl (fun i _ => rfl) rfl
  | store ps =>
    obtain ⟨b, e, hb⟩ := place_holds (w := a) ha0 (N := N) (ps := ps) hc
    refine step (.store b) hb.1 (by simp [astep, e]) (fun i hi => ?_) rfl
    simp [Op.after, Op.effect, hb.get ha0 i hi, Cmd.after]
  | set j v =>
    exact step (.set j v) (by have : j < N := hc; show j < a; omega) rfl (fun i _ => ite_after _ _ _) rfl
  | setRange l m v =>
    exact step (.setRange l m v) ⟨hc.1, by have := hc.2; omega⟩ rfl (fun i _ => ite_after _ _ _) rfl
  | setLen l n v =>
    exact step (.setLen l n v) ⟨hc.1, by have := hc.2; omega⟩ rfl (fun i _ => ite_after _ _ _) rfl
  | setAll => exact step .setAll trivial rfl (fun i _ => rfl) rfl
  | reset j =>
    exact step (.reset j) (by have : j < N := hc; show j < a; omega) rfl (fun i _ => ite_after _ _ _) rfl
  | resetRange l m =>
    exact step (.resetRange l m) ⟨hc.1, by have := hc.2; omega⟩ rfl (fun i _ => ite_after _ _ _) rfl
  | resetLen l n =>
    exact step (.resetLen l n) ⟨hc.1, by have := hc.2; omega⟩ rfl (fun i _ => ite_after _ _ _) rfl
  | resetAll => exact step .resetAll trivial rfl (fun i _ => rfl) rfl
  | flip j =>
    exact step (.flip j) (by have : j < N := hc; show j < a; omega) rfl (fun i _ => ite_after _ _ _) rfl
  | flipAll => exact step .flipAll trivial rfl (fun i _ => rfl) rfl
  | get i => exact ⟨c, by simp [astep, alook, alone, Conc.load, o3 i hc, h i hc, Cmd.answer], h⟩
  | all =>
    refine ⟨c, ?_, h⟩
    simp only [astep, alook, alone, Conc.load, o4, Outcome.ok_bind, Outcome.pure_eq_ok, Cmd.answer, id]
    congr 3
    rw [decide_eq_decide]
    exact forall_congr' fun i => forall_congr' fun hi => by rw [h i hi]
  | any =>
    refine ⟨c, ?_, h⟩
    simp only [astep, alook, alone, Conc.load, o5, Outcome.ok_bind, Outcome.pure_eq_ok, Cmd.answer, id]
    congr 3
    rw [decide_eq_decide]
    exact exists_congr fun i => and_congr_right fun hi => by rw [h i hi]
  | none =>
    refine ⟨c, ?_, h⟩
    simp only [astep, alook, alone, Conc.load, o6, Outcome.ok_bind, Outcome.pure_eq_ok, Cmd.answer, id]
    congr 3
    rw [decide_eq_decide]
    exact forall_congr' fun i => forall_congr' fun hi => by rw [h i hi]
  | count =>
    refine ⟨c, ?_, h⟩
    simp only [astep, alook, alone, Conc.load, o7, Outcome.ok_bind, Outcome.pure_eq_ok, Cmd.answer, id]
    congr 4
    exact List.filter_congr fun i hi => h i (by simpa using hi)
  | «to» u same =>
    refine ⟨c, ?_, h⟩
    by_cases hu : u < N
    · simp [astep, (o1 u).1.mpr hu, Cmd.answer, hu]
    · obtain ⟨r, e, hr⟩ := (o1 u).2 (by omega)
      have : r.toNat = number st N := toNat_number fun i => by
        rw [hr]; by_cases hi : i < N
        · rw [h i hi]
        · simp [hi]
      simp [astep, e, alook, alone, Conc.load, Cmd.answer, hu, this]

/-! ## C135 -/

/-- **C135, partial: the same answers.** For every capacity, word type of the bitset, cell type of the atomic bitset,
constructor and history of calls with arguments inside the bitset, an `atomic_bitset` that one thread uses tells its
caller exactly what a `bitset` does, and both tell what the set of positions does.  What an operation of the atomic one
returns is what a copy of the bitset taken before the call holds. -/
theorem C135_single_thread_partial {w a N : Nat} (hw : StdWidth w) (ha : StdWidth a) (hN : 0 < N) (hNa : N ≤ a)
    (mk : Make) (hmk : mk.Within N) (cs : List Cmd) (hcs : ∀ c ∈ cs, c.Within w N) :
    ∃ (s : Words w) (x : BitVec a), bmake w N mk = .ok s ∧ amake a N mk = .ok x ∧
      brun N cs s = .ok (answers N cs (mk.start N)) ∧ arun N cs x = .ok (answers N cs (mk.start N)) := by
  obtain ⟨s, es, hs⟩ := bmake_holds hw hN mk hmk
  obtain ⟨x, ex, hx⟩ := amake_holds ha hN hNa mk hmk
  refine ⟨s, x, es, ex, ?_⟩
  have h64 : N ≤ 64 := Nat.le_trans hNa (std_lt ha).1
  clear es ex
  generalize mk.start N = st at hs hx
  induction cs generalizing s x st with
  | nil => exact ⟨rfl, rfl⟩
  | cons c cs ih =>
    obtain ⟨s', e1, h1⟩ := bstep_ok hw h64 hs c (hcs c (by simp))
    obtain ⟨x', e2, h2⟩ := astep_ok ha hN hNa hx c (hcs c (by simp))
    obtain ⟨i1, i2⟩ := ih (fun c' h' => hcs c' (by simp [h'])) s' x' _ h1 h2
    simp [brun, arun, e1, e2, i1, i2, answers]

/-- **C135, looking is loading.** `all`, `any`, `none`, `count` and `operator[]` of an atomic bitset are `load` followed
by the same call on the bitset it returns, whatever the cell holds. -/
theorem C135_look_is_load {a N : Nat} (ha : StdWidth a) (hN : 0 < N) (hNa : N ≤ a) (c : BitVec a) :
    ∃ b : Words a, alone (impl N .load) c = .ok (some b, c) ∧ all N c = Bitset.all N b ∧ any N c = Bitset.any N b ∧
      none' N c = Bitset.isEmpty N b ∧ count N c = Bitset.count N b ∧ ∀ i, i < N → get N c i = Bitset.get b i := by
  have ha0 := StdWidth.pos ha
  have hB := storage_bounds ha0 N
  obtain ⟨m, em, hm⟩ := mask_spec ha hN hNa
  obtain ⟨b, eb, hl, hb⟩ := toBitset_spec ha hN hNa (c &&& m)
  have hb' : ∀ i, i < N → Bitset.get b i = .ok (c.getLsbD i) := fun i hi => by
    rw [hb i hi, BitVec.getLsbD_and, hm]; simp [hi]
  have hh : Holds N b c.getLsbD := ⟨hl, fun i hi => by
    have := hb' i hi
    rw [get_bits ha0 (by rw [hl]; omega), Outcome.ok.injEq] at this; exact this⟩
  have h64 : N ≤ 64 := Nat.le_trans hNa (std_lt ha).1
  obtain ⟨_, _, o3, o4, o5, o6, o7⟩ := C41_atomic_bitset_observers ha hN hNa c
  refine ⟨b, by simp [impl, em, Prog.ofOutcome, Prog.bind, Conc.load, alone, eb], ?_, ?_, ?_, ?_, fun i hi => by
    rw [o3 i hi, hb' i hi]⟩
  · obtain ⟨s', e, _⟩ := bstep_ok ha h64 hh .all trivial
    rw [o4]
    simp only [bstep, Cmd.answer] at e
    obtain ⟨r, er, e⟩ := Outcome.bind_eq_ok.mp e
    simp at e
    rw [er, ← e.1]
  · obtain ⟨s', e, _⟩ := bstep_ok ha h64 hh .any trivial
    rw [o5]
    simp only [bstep, Cmd.answer] at e
    obtain ⟨r, er, e⟩ := Outcome.bind_eq_ok.mp e
    simp at e
    rw [er, ← e.1]
  · obtain ⟨s', e, _⟩ := bstep_ok ha h64 hh .none trivial
    rw [o6]
    simp only [bstep, Cmd.answer] at e
    obtain ⟨r, er, e⟩ := Outcome.bind_eq_ok.mp e
    simp at e
    rw [er, ← e.1]
  · obtain ⟨s', e, _⟩ := bstep_ok ha h64 hh .count trivial
    rw [o7]
    simp only [bstep, Cmd.answer] at e
    obtain ⟨r, er, e⟩ := Outcome.bind_eq_ok.mp e
    simp at e
    rw [er, ← e.1]

/-- **C135 is false for `size()`.** A bitset counts its elements and an atomic bitset gives its capacity: the answers
differ for every set that is not full. -/
theorem C135_size_violated {w N : Nat} (hw : StdWidth w) {s : Words w} (hs : s.length = storageSize w N)
    (h : ∃ i, i < N ∧ Bitset.get s i = .ok false) : bsize N s ≠ .ok (asize N) := by
  obtain ⟨i, hi, hg⟩ := h
  rw [bsize, C10_bitset_count hw hs]
  simp only [asize, ne_eq, Outcome.ok.injEq]
  intro h1
  have h2 : (List.range N).filter (fun i => Bitset.get s i == .ok true) = List.range N :=
    List.filter_sublist.eq_of_length (by rw [h1, List.length_range])
  have h3 : i ∈ (List.range N).filter (fun i => Bitset.get s i == .ok true) := by rw [h2]; simpa using hi
  simp [hg] at h3

/-- **C135 is false for `to` with a result narrower than a word**: it compiles for the atomic bitset and is right, and
does not compile for the bitset, although the result has room for every position. -/
theorem C135_to_violated {w N u : Nat} (hw : StdWidth w) (hN : 0 < N) (hu : N ≤ u) (huw : u < w) (same : Bool)
    (s : Words w) (c : BitVec w) :
    bstep N (.to u same) s = .ok (.rejected, s) ∧ astep N (.to u same) c = .ok (.num (number c.getLsbD N), c) := by
  constructor
  · simp [bstep, Bitset.to, huw]
  · obtain ⟨o1, _⟩ := C41_atomic_bitset_observers hw hN (by omega) c
    obtain ⟨r, e, hr⟩ := (o1 u).2 hu
    simp [astep, e, alook, alone, Conc.load, toNat_number hr]

/-! ## Nothing at or above the capacity -/

/-- The arguments of an operation keep below `N`; a stored bitset may hold anything. -/
def Op.Within {w : Nat} (N : Nat) : Op w → Prop
  | .store b => b.length = storageSize w N
  | .set i _ | .reset i | .flip i => i < N
  | .setRange l m _ | .resetRange l m | .flipRange l m => l ≤ m ∧ m < N
  | .setLen l n _ | .resetLen l n | .flipLen l n => 0 < n ∧ l + n ≤ N
  | _ => True

theorem Op.Within.legal {w N : Nat} (hNw : N ≤ w) {op : Op w} (h : op.Within N) : op.Legal N := by
  cases op <;> simp only [Op.Within, Op.Legal] at * <;> omega

/-- Each operation within the bitset keeps the cell clear at and above `N`, and so is what it returns. -/
theorem impl_clean {w N : Nat} (hw : StdWidth w) (hN : 0 < N) (hNw : N ≤ w) (op : Op w) (h : op.Within N) :
    ∃ (f : BitVec w → BitVec w) (g : BitVec w → Option (Words w)),
      impl N op = .atomically f (fun c => .ret (g c)) ∧
      ∀ c, (∀ i, N ≤ i → c.getLsbD i = false) → (∀ i, N ≤ i → (f c).getLsbD i = false) ∧
        ∀ b, g c = some b → b.length = storageSize w N ∧ ∀ i, N ≤ i → bits b i = false := by
  have hw0 := StdWidth.pos hw
  have hB := storage_bounds hw0 N
  obtain ⟨m, em, hm⟩ := mask_spec hw hN hNw
  have h64 := (std_lt hw).1
  have hbs : ∀ v : BitVec w, ∃ b, toBitset w N v = .ok b ∧
      ((∀ i, N ≤ i → v.getLsbD i = false) → b.length = storageSize w N ∧ ∀ i, N ≤ i → bits b i = false) := by
    intro v
    obtain ⟨b, e, hl, hb⟩ := ofU64_spec hw (N := N) (by omega) (v.setWidth 64)
    refine ⟨b, e, fun hv => ⟨hl, fun i hi => ?_⟩⟩
    by_cases hlt : i < storageSize w N * w
    · rw [hb i hlt, BitVec.getLsbD_setWidth, hv i hi, Bool.and_false]
    · exact bits_ge hw0 (by rw [hl]; omega)
  choose bs hbs1 hbs2 using hbs
  have hret : ∀ f : BitVec w → BitVec w, returnBitset N (.atomically f .ret) =
      .atomically f (fun c => .ret (some (bs c))) := by
    intro f
    simp [returnBitset, Prog.bind, hbs1, Prog.ofOutcome]
  have hprev : ∀ c : BitVec w, (∀ i, N ≤ i → c.getLsbD i = false) → ∀ b, some (bs c) = some b →
      b.length = storageSize w N ∧ ∀ i, N ≤ i → bits b i = false := by
    intro c hc b e; cases e; exact hbs2 c hc
  have hrange : ∀ l k, l ≤ k → k < N → ∃ v, BitMask.bitMask w k l = .ok v ∧ ∀ i, N ≤ i → v.getLsbD i = false := by
    intro l k h1 h2
    obtain ⟨v, e, hv⟩ := BitMask.C01_bit_mask (std_lt hw).2 h1 (show k < w by omega)
    exact ⟨v, e, fun i hi => by rw [hv]; simp; omega⟩
  have hone : ∀ pos, pos < N → ∃ v, cshl 1#w pos = .ok v ∧ ∀ i, N ≤ i → v.getLsbD i = false := by
    intro pos h
    exact ⟨_, cshl_ok (show pos < w by omega), fun i hi => by rw [getLsbD_one_shl (by omega)]; simp; omega⟩
  have hlen : ∀ l n, 0 < n ∧ l + n ≤ N → lenToMsb l n = l + n - 1 := fun l n h => lenToMsb_eq h.1 (by omega)
  have hset : ∀ (v : BitVec w) (value : Bool), (∀ i, N ≤ i → v.getLsbD i = false) → ∃ f : BitVec w → BitVec w,
      (if value then returnBitset N (fetchOr v) else returnBitset N (fetchAnd (~~~v))) =
        .atomically f (fun c => .ret (some (bs c))) ∧
      ∀ c, (∀ i, N ≤ i → c.getLsbD i = false) → ∀ i, N ≤ i → (f c).getLsbD i = false := by
    intro v value hv
    cases value
    · exact ⟨fun c => c &&& ~~~v, by simpa [fetchAnd] using hret _, fun c hc i hi => by
        rw [BitVec.getLsbD_and, hc i hi, Bool.false_and]⟩
    · exact ⟨fun c => c ||| v, by simpa [fetchOr] using hret _, fun c hc i hi => by
        rw [BitVec.getLsbD_or, hc i hi, hv i hi, Bool.false_or]⟩
  have hflip : ∀ (v : BitVec w), (∀ i, N ≤ i → v.getLsbD i = false) →
      returnBitset N (fetchXor v) = .atomically (fun c => c ^^^ v) (fun c => .ret (some (bs c))) ∧
      ∀ c : BitVec w, (∀ i, N ≤ i → c.getLsbD i = false) → ∀ i, N ≤ i → (c ^^^ v).getLsbD i = false := by
    intro v hv
    exact ⟨by simpa [fetchXor] using hret _, fun c hc i hi => by
      rw [BitVec.getLsbD_xor, hc i hi, hv i hi]; rfl⟩
  cases op with
  | load =>
    refine ⟨id, fun c => some (bs (c &&& m)), by simp [impl, em, Prog.ofOutcome, Prog.bind, Conc.load, hbs1],
      fun c hc => ⟨hc, fun b e => ?_⟩⟩
    cases e
    exact hbs2 _ (fun i hi => by rw [BitVec.getLsbD_and, hc i hi, Bool.false_and])
  | store b =>
    obtain ⟨x, hx⟩ : ∃ x, Bitset.to N w true b = some x := by
      unfold Bitset.to
      rw [if_neg (by omega)]
      split <;> exact ⟨_, rfl⟩
    obtain ⟨r, rfl, hr⟩ := C16_bitset_to hw0 (fun _ => rfl) h hx
    exact ⟨fun _ => r, fun _ => none, by simp [impl, hx, Prog.ofOutcome, Prog.bind, Conc.store],
      fun c hc => ⟨fun i hi => (hr i).2 hi, fun b e => by cases e⟩⟩
  | set i v =>
    obtain ⟨y, ey, hy⟩ := hone i h
    obtain ⟨f, e, hf⟩ := hset y v hy
    exact ⟨f, fun c => some (bs c), by simp [impl, ey, Prog.ofOutcome, Prog.bind, e], fun c hc => ⟨hf c hc, hprev c hc⟩⟩
  | setRange l k v =>
    obtain ⟨y, ey, hy⟩ := hrange l k h.1 h.2
    obtain ⟨f, e, hf⟩ := hset y v hy
    exact ⟨f, fun c => some (bs c), by simp [impl, setRange, ey, Prog.ofOutcome, Prog.bind, e], fun c hc => ⟨hf c hc, hprev c hc⟩⟩
  | setLen l n v =>
    have h' := h
    obtain ⟨y, ey, hy⟩ := hrange l (l + n - 1) (by have := h.1; omega) (by have := h.1; have := h.2; omega)
    obtain ⟨f, e, hf⟩ := hset y v hy
    exact ⟨f, fun c => some (bs c), by simp only [impl, hlen l n h']; simp [setRange, ey, Prog.ofOutcome, Prog.bind, e],
      fun c hc => ⟨hf c hc, hprev c hc⟩⟩
  | setAll =>
    exact ⟨fun _ => m, fun _ => none, by simp [impl, em, Prog.ofOutcome, Prog.bind, Conc.store],
      fun c hc => ⟨fun i hi => by rw [hm]; simp; omega, fun b e => by cases e⟩⟩
  | reset i =>
    obtain ⟨y, ey, hy⟩ := hone i h
    obtain ⟨f, e, hf⟩ := hset y false hy
    simp only [Bool.false_eq_true, if_false] at e
    exact ⟨f, fun c => some (bs c), by simp [impl, ey, Prog.ofOutcome, Prog.bind, e], fun c hc => ⟨hf c hc, hprev c hc⟩⟩
  | resetRange l k =>
    obtain ⟨y, ey, hy⟩ := hrange l k h.1 h.2
    obtain ⟨f, e, hf⟩ := hset y false hy
    simp only [Bool.false_eq_true, if_false] at e
    exact ⟨f, fun c => some (bs c), by simp [impl, resetRange, ey, Prog.ofOutcome, Prog.bind, e], fun c hc => ⟨hf c hc, hprev c hc⟩⟩
  | resetLen l n =>
    have h' := h
    obtain ⟨y, ey, hy⟩ := hrange l (l + n - 1) (by have := h.1; omega) (by have := h.1; have := h.2; omega)
    obtain ⟨f, e, hf⟩ := hset y false hy
    simp only [Bool.false_eq_true, if_false] at e
    exact ⟨f, fun c => some (bs c), by simp only [impl, hlen l n h']; simp [resetRange, ey, Prog.ofOutcome, Prog.bind, e],
      fun c hc => ⟨hf c hc, hprev c hc⟩⟩
  | resetAll =>
    exact ⟨fun _ => 0#w, fun _ => none, by simp [impl, Prog.bind, Conc.store],
      fun c hc => ⟨fun i hi => by simp, fun b e => by cases e⟩⟩
  | flip i =>
    obtain ⟨y, ey, hy⟩ := hone i h
    obtain ⟨e, hf⟩ := hflip y hy
    exact ⟨_, fun c => some (bs c), by simp [impl, ey, Prog.ofOutcome, Prog.bind, e], fun c hc => ⟨hf c hc, hprev c hc⟩⟩
  | flipRange l k =>
    obtain ⟨y, ey, hy⟩ := hrange l k h.1 h.2
    obtain ⟨e, hf⟩ := hflip y hy
    exact ⟨_, fun c => some (bs c), by simp [impl, flipRange, ey, Prog.ofOutcome, Prog.bind, e], fun c hc => ⟨hf c hc, hprev c hc⟩⟩
  | flipLen l n =>
    have h' := h
    obtain ⟨y, ey, hy⟩ := hrange l (l + n - 1) (by have := h.1; omega) (by have := h.1; have := h.2; omega)
    obtain ⟨e, hf⟩ := hflip y hy
    exact ⟨_, fun c => some (bs c), by simp only [impl, hlen l n h']; simp [flipRange, ey, Prog.ofOutcome, Prog.bind, e],
      fun c hc => ⟨hf c hc, hprev c hc⟩⟩
  | flipAll =>
    obtain ⟨e, hf⟩ := hflip m (fun i hi => by rw [hm]; simp; omega)
    exact ⟨_, fun c => some (bs c), by simp [impl, em, Prog.ofOutcome, Prog.bind, e], fun c hc => ⟨hf c hc, hprev c hc⟩⟩

theorem amake_clean {w N : Nat} (hw : StdWidth w) (hN : 0 < N) (hNw : N ≤ w) (mk : Make) (h : mk.Within N) {c : BitVec w}
    (e : amake w N mk = .ok c) : ∀ i, N ≤ i → c.getLsbD i = false := by
  obtain ⟨m, em, hm⟩ := mask_spec hw hN hNw
  have h64 := (std_lt hw).1
  intro i hi
  cases mk with
  | zero => cases e; simp
  | value v =>
    simp only [amake, ofValue, em, Outcome.ok_bind, Outcome.pure_eq_ok, Outcome.ok.injEq] at e
    subst e
    simp [hm, show ¬ i < N by omega]
  | place ps =>
    induction ps generalizing c with
    | nil => cases e; simp
    | cons p ps ih =>
      have hp : p < N := h p (by simp)
      simp only [amake, ofPlaceBits, cshl_ok (show p < w by omega), Outcome.ok_bind] at e
      obtain ⟨r, er, e⟩ := Outcome.bind_eq_ok.mp e
      simp only [Outcome.pure_eq_ok, Outcome.ok.injEq] at e
      rw [← e, BitVec.getLsbD_or, getLsbD_one_shl (by omega), ih (fun q hq => h q (by simp [hq])) er]
      simp; omega
  | all =>
    simp only [amake, ofAllBits, em, Outcome.ok.injEq] at e
    rw [← e, hm]; simp; omega
  | str s pos n one =>
    obtain ⟨r, er, hr⟩ := strLoop_bits (StdWidth.pos hw) one
      ((s.drop pos).take (min (min n (s.length - pos)) N)).reverse 0 0#w
    have hpos : pos ≤ s.length := h
    have : c = r := by
      simp only [amake, ofString] at e
      rw [if_neg (by omega)] at e
      have e' : strLoop one ((s.drop pos).take (min (min n (s.length - pos)) N)).reverse 1#w 0#w = .ok c := e
      rw [show (1#w <<< 0) = 1#w by simp, e'] at er
      cases er; rfl
    rw [this, hr, List.getElem?_eq_none (by simp only [List.length_reverse, List.length_take]; omega)]
    simp

/-- **C135, nothing outside the bitset.** For every number of threads and every schedule, when the arguments keep inside
the bitset nothing is ever held at or above its capacity: every bitset that a finished thread was returned, by `load` or
as a previous value, answers `lowest_unset()` with its least clear position, or its capacity if it is full, and
`transform_reduce` visits exactly its elements in ascending order.  (A plain bitset does
not ensure that after `set()`, `C12_bitset_transform_reduce_violated` and `C13_bitset_lowest_unset_violated`.) -/
theorem C135_returned_clean {w N : Nat} (hw : StdWidth w) (hN : 0 < N) (hNw : N ≤ w) (mk : Make) (hmk : mk.Within N)
    {c0 : BitVec w} (e0 : amake w N mk = .ok c0) (progs : List (List (Op w)))
    (hin : ∀ ops ∈ progs, ∀ op ∈ ops, op.Within N) (sched : List Nat) (s : Sys w (List (Option (Words w))))
    (hr : (start (impl N) progs c0).run sched = some s) (t : Nat) (rs : List (Option (Words w)))
    (ht : s.threads[t]? = some (.ret rs)) (b : Words w) (hb : some b ∈ rs) :
    (∃ k, lowestUnset b = .ok k ∧ k ≤ N ∧ (∀ j, j < k → Bitset.get b j = .ok true) ∧
      (k < N → Bitset.get b k = .ok false)) ∧
    ∀ {τ ρ : Type} (f : Nat → τ) (r : ρ → τ → ρ) (init : ρ), transformReduce f r init b =
      .ok (((List.range N).filter (fun i => Bitset.get b i == .ok true)).foldl (fun x p => r x (f p)) init) := by
  have hw0 := StdWidth.pos hw
  have hone : ∀ op : Op w, ∃ (f : BitVec w → BitVec w) (g : BitVec w → Option (Words w)), op.Within N →
      impl N op = .atomically f (fun c => .ret (g c)) ∧
      ∀ c, (∀ i, N ≤ i → c.getLsbD i = false) → (∀ i, N ≤ i → (f c).getLsbD i = false) ∧
        ∀ b, g c = some b → b.length = storageSize w N ∧ ∀ i, N ≤ i → bits b i = false := by
    intro op
    by_cases h : op.Within N
    · obtain ⟨f, g, h1⟩ := impl_clean hw hN hNw op h
      exact ⟨f, g, fun _ => h1⟩
    · exact ⟨id, fun _ => none, fun h' => absurd h' h⟩
  choose f g hfg using hone
  obtain ⟨h, h1, hx⟩ := linearizable (Legal := Op.Within N) (fun op hl => (hfg op hl).1) hin hr
  have hall : ∀ e ∈ h, e.op.Within N := by
    intro e he
    have ht := hx.tids e he
    obtain ⟨rest, h2, _⟩ := hx.threads e.tid progs[e.tid] (List.getElem?_eq_getElem ht)
    refine hin _ (List.getElem_mem ht) e.op ?_
    rw [h2]
    exact List.mem_append_left _ (List.mem_map.mpr ⟨e, List.mem_filter.mpr ⟨he, by simp⟩, rfl⟩)
  have hfold : ∀ (k : List (Event (Op w) (Option (Words w)))) (c : BitVec w), (∀ e ∈ k, e.op.Within N) →
      (∀ i, N ≤ i → c.getLsbD i = false) → ∀ i, N ≤ i → (k.foldl (fun c e => f e.op c) c).getLsbD i = false := by
    intro k
    induction k with
    | nil => intro c _ hc; exact hc
    | cons e k ih =>
      intro c hk hc
      exact ih _ (fun e' he' => hk e' (by simp [he'])) ((hfg e.op (hk e (by simp))).2 c hc).1
  have htlt : t < progs.length := by
    rw [← hx.len]
    exact (List.getElem?_eq_some_iff.mp ht).1
  obtain ⟨rest, h2, h3⟩ := hx.threads t progs[t] (List.getElem?_eq_getElem htlt)
  rw [ht] at h3
  have hrs : rs = resOf h t := by
    cases rest with
    | nil => simpa [threadProg] using h3
    | cons op rest =>
      have hop : op.Within N := hin progs[t] (List.getElem_mem htlt) op (by rw [h2]; simp)
      rw [threadProg, (hfg op hop).1] at h3
      simp [Prog.bind] at h3
  rw [hrs] at hb
  obtain ⟨e, he, heb⟩ := List.mem_map.mp hb
  have he' := (List.mem_filter.mp he).1
  obtain ⟨pre, post, hsplit⟩ := List.append_of_mem he'
  have hg := hx.results pre e post hsplit
  rw [heb] at hg
  obtain ⟨hl, hclean⟩ := ((hfg e.op (hall e he')).2 _ (hfold pre c0 (fun e'' h'' => hall e'' (by rw [hsplit]; simp [h'']))
    (amake_clean hw hN hNw mk hmk e0))).2 b hg.symm
  have hB := storage_bounds hw0 N
  have hget : ∀ j, N ≤ j → j < storageSize w N * w → Bitset.get b j = .ok false := fun j h1 h2 => by
    rw [get_bits hw0 (by rw [hl]; exact h2), hclean j h1]
  refine ⟨?_, fun f r init => C12_bitset_transform_reduce_partial hw hl hget f r init⟩
  obtain ⟨k, e1, e2, e3, e4⟩ := C13_bitset_lowest_unset_partial hw hl
  have := e4 hget
  exact ⟨k, e1, this, fun j hj => e2 j hj (by omega), e3⟩

/-! ## A concrete case: five positions, words of 8 bits, a cell of 32 bits -/

/-- The calls of the example. -/
def sampleCmds : List Cmd := [.setRange 1 3 true, .flipAll, .count, .reset 0, .to 8 true, .setAll, .all, .load]

example : ∀ c ∈ sampleCmds, c.Within 8 5 := by
  simp [sampleCmds, Cmd.Within]
example : (Make.str ['1', '0', '1'] 0 10 '1').Within 5 := by simp [Make.Within]
example : answers 5 sampleCmds (Make.start 5 (.str ['1', '0', '1'] 0 10 '1')) =
    [.was [true, false, true, false, false], .was [true, true, true, true, false], .num 1,
     .was [false, false, false, false, true], .num 16, .done, .bool true, .was [true, true, true, true, true]] := by decide
example : (amake 32 5 (.str ['1', '0', '1'] 0 10 '1') >>= arun 5 sampleCmds) =
    (bmake 8 5 (.str ['1', '0', '1'] 0 10 '1') >>= brun 5 sampleCmds) := by decide
example : ((start (impl 5) [[Op.setAll, .flipAll], [.resetRange 2 4]] 0#8).run [0, 1, 0]).map (·.threads.length) = some 2 := by
  decide
example : ∃ i, i < 5 ∧ Bitset.get [0b10111#8] i = .ok false := ⟨3, by decide⟩

end Verif.AtomicBitset
