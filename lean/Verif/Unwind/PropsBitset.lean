import Verif.Unwind.Props
import Verif.Bitset.PropsVisit

/-!
# C139, bitsets: functions that throw
-/

namespace Verif.Unwind

open BitOps

variable {E W X A R β τ σ : Type}

/-! ## A state that an exception freezes -/

/-- One step from a state that holds the value carried along or the exception already thrown. -/
def sticky (act : A → Act E W X) (s : W × Except E X) (a : A) : W × Except E X :=
  match s with
  | (w, .ok x) => act a x w
  | (w, .error e) => (w, .error e)

theorem foldl_error (act : A → Act E W X) (w : W) (e : E) (l : List A) : l.foldl (sticky act) (w, .error e) = (w, .error e) := by
  induction l with
  | nil => rfl
  | cons a l ih => exact ih

theorem foldl_runs {act : A → Act E W X} {l : List A} {x : X} {w w' : W} {r : Except E X} (h : Runs (l.map act) x w w' r) :
    l.foldl (sticky act) (w, .ok x) = (w', r) := by
  induction l generalizing x w with
  | nil => cases h; rfl
  | cons a l ih =>
    rw [List.map_cons] at h
    rw [List.foldl_cons]
    cases h with
    | next h hr =>
      rw [show sticky act (w, .ok x) a = _ from h]
      exact ih hr
    | stop h =>
      rw [show sticky act (w, .ok x) a = _ from h]
      exact foldl_error _ _ _ _

/-- What the caller sees of such a state. -/
def seen (s : W × Except E X) : Res E W X := Res.of s.1 s.2

theorem need_bind {o : Outcome A} {k : A → Outcome R} {r : R} (h : o.bind k = .ok r) : ∃ a, o = .ok a ∧ k a = .ok r := by
  cases o with
  | ok a => exact ⟨a, rfl, h⟩
  | ub => cases h
  | panic => cases h

/-! ## The loops agree with those of functions that return -/

theorem setBitLoop_error {w : Nat} (act : Nat → Act E W X) (idx : Nat) (st : W) (x : E) : ∀ (fuel : Nat) (e : BitVec w) (s : W × Except E X),
    Bitset.setBitLoop (sticky act) idx fuel e (st, .error x) = .ok s → s = (st, .error x) := by
  intro fuel
  induction fuel with
  | zero =>
    intro e s h
    unfold Bitset.setBitLoop at h
    split at h <;> cases h
    rfl
  | succ fuel ih =>
    intro e s h
    unfold Bitset.setBitLoop at h
    split at h
    · cases h; rfl
    · obtain ⟨c, _, h⟩ := need_bind h
      obtain ⟨b, _, h⟩ := need_bind h
      exact ih _ _ h

theorem setBitLoop_sim {w : Nat} {f : X → Nat → W → Res E W X} {act : Nat → Act E W X}
    (hf : ∀ x i st, f x i st = seen (act i x st)) (idx : Nat) : ∀ (fuel : Nat) (e : BitVec w) (x : X) (st : W) (s : W × Except E X),
    Bitset.setBitLoop (sticky act) idx fuel e (st, .ok x) = .ok s → setBitLoop f idx fuel e x st = seen s := by
  intro fuel
  induction fuel with
  | zero =>
    intro e x st s h
    unfold Bitset.setBitLoop at h
    unfold setBitLoop
    split at h <;> cases h
    rw [if_pos (by assumption)]; rfl
  | succ fuel ih =>
    intro e x st s h
    unfold Bitset.setBitLoop at h
    unfold setBitLoop
    split at h
    · cases h
      rw [if_pos (by assumption)]; rfl
    · obtain ⟨c, hc, h⟩ := need_bind h
      obtain ⟨b, hb, h⟩ := need_bind h
      rw [if_neg (by assumption)]
      simp only [need, hc, hb, hf]
      change Bitset.setBitLoop (sticky act) idx fuel _ (act (idx + c.toNat) x st) = _ at h
      cases ha : act (idx + c.toNat) x st with
      | mk st1 r =>
        rw [ha] at h
        cases r with
        | ok x1 => exact ih _ _ _ _ h
        | error x1 => rw [setBitLoop_error _ _ _ _ _ _ _ h]; rfl

theorem unsetBitLoop_error {w : Nat} (act : Nat → Act E W Unit) (mask : BitVec w) (idx : Nat) (st : W) (x : E) :
    ∀ (fuel : Nat) (e : BitVec w) (s : W × Except E Unit),
    Bitset.unsetBitLoop (sticky act) mask idx fuel e (st, .error x) = .ok s → s = (st, .error x) := by
  intro fuel
  induction fuel with
  | zero =>
    intro e s h
    unfold Bitset.unsetBitLoop at h
    split at h <;> cases h
    rfl
  | succ fuel ih =>
    intro e s h
    unfold Bitset.unsetBitLoop at h
    split at h
    · cases h; rfl
    · obtain ⟨c, _, h⟩ := need_bind h
      obtain ⟨b, _, h⟩ := need_bind h
      exact ih _ _ h

theorem unsetBitLoop_sim {w : Nat} {f : Nat → W → Res E W Unit} {act : Nat → Act E W Unit}
    (hf : ∀ i st, f i st = seen (act i () st)) (mask : BitVec w) (idx : Nat) :
    ∀ (fuel : Nat) (e : BitVec w) (st : W) (s : W × Except E Unit),
    Bitset.unsetBitLoop (sticky act) mask idx fuel e (st, .ok ()) = .ok s → unsetBitLoop f mask idx fuel e st = seen s := by
  intro fuel
  induction fuel with
  | zero =>
    intro e st s h
    unfold Bitset.unsetBitLoop at h
    unfold unsetBitLoop
    split at h <;> cases h
    rw [if_pos (by assumption)]; rfl
  | succ fuel ih =>
    intro e st s h
    unfold Bitset.unsetBitLoop at h
    unfold unsetBitLoop
    split at h
    · cases h
      rw [if_pos (by assumption)]; rfl
    · obtain ⟨c, hc, h⟩ := need_bind h
      obtain ⟨b, hb, h⟩ := need_bind h
      rw [if_neg (by assumption)]
      simp only [need, hc, hb, hf]
      change Bitset.unsetBitLoop (sticky act) mask idx fuel _ (act (idx + c.toNat) () st) = _ at h
      cases ha : act (idx + c.toNat) () st with
      | mk st1 r =>
        rw [ha] at h
        cases r with
        | ok x1 => exact ih _ _ _ h
        | error x1 => rw [unsetBitLoop_error _ _ _ _ _ _ _ _ h]; rfl

theorem eachBitLoop_error {w : Nat} (act : Nat × Bool → Act E W Unit) (e : BitVec w) (idx : Nat) (st : W) (x : E) :
    ∀ (k i : Nat) (s : W × Except E Unit),
    Bitset.eachBitLoop (sticky act) e idx k i (st, .error x) = .ok s → s = (st, .error x) := by
  intro k
  induction k with
  | zero => intro i s h; cases h; rfl
  | succ k ih =>
    intro i s h
    obtain ⟨b, _, h⟩ := need_bind h
    exact ih _ _ h

theorem eachBitLoop_sim {w : Nat} {f : Nat × Bool → W → Res E W Unit} {act : Nat × Bool → Act E W Unit}
    (hf : ∀ i st, f i st = seen (act i () st)) (e : BitVec w) (idx : Nat) :
    ∀ (k i : Nat) (st : W) (s : W × Except E Unit),
    Bitset.eachBitLoop (sticky act) e idx k i (st, .ok ()) = .ok s → eachBitLoop f e idx k i st = seen s := by
  intro k
  induction k with
  | zero => intro i st s h; cases h; rfl
  | succ k ih =>
    intro i st s h
    obtain ⟨b, hb, h⟩ := need_bind h
    unfold eachBitLoop
    simp only [need, hb, hf]
    change Bitset.eachBitLoop (sticky act) e idx k _ (act (idx + i, (e &&& b) != 0#w) () st) = _ at h
    cases ha : act (idx + i, (e &&& b) != 0#w) () st with
    | mk st1 r =>
      rw [ha] at h
      cases r with
      | ok x1 => exact ih _ _ _ h
      | error x1 => rw [eachBitLoop_error _ _ _ _ _ _ _ _ h]; rfl

theorem just_seen (f : Fn E W A Unit) (a : A) (st : W) : call f a st = seen (just f a () st) := call_eq _ _ _

theorem specFn_error {w : Nat} (sp : Bitset.Spec) (mask e : BitVec w) (idx : Nat) (f : Fn E W (Nat × Bool) Unit) (st : W) (x : E)
    (s : W × Except E Unit) (h : sp.fn mask e idx (sticky (just f)) (st, .error x) = .ok s) : s = (st, .error x) := by
  cases sp with
  | setBit =>
    simp only [Bitset.Spec.fn] at h
    rw [show (fun s i => sticky (just f) s (i, true)) = sticky (fun i => just f (i, true)) from rfl] at h
    exact setBitLoop_error _ _ _ _ _ _ _ h
  | unsetBit =>
    simp only [Bitset.Spec.fn] at h
    rw [show (fun s i => sticky (just f) s (i, false)) = sticky (fun i => just f (i, false)) from rfl] at h
    exact unsetBitLoop_error _ _ _ _ _ _ _ _ h
  | bit => exact eachBitLoop_error _ _ _ _ _ _ _ _ h

theorem specFn_sim {w : Nat} (sp : Bitset.Spec) (mask e : BitVec w) (idx : Nat) (f : Fn E W (Nat × Bool) Unit) (st : W)
    (s : W × Except E Unit) (h : sp.fn mask e idx (sticky (just f)) (st, .ok ()) = .ok s) : specFn sp mask e idx f st = seen s := by
  cases sp with
  | setBit =>
    simp only [Bitset.Spec.fn] at h
    rw [show (fun s i => sticky (just f) s (i, true)) = sticky (fun i => just f (i, true)) from rfl] at h
    exact setBitLoop_sim (fun _ i st => just_seen f (i, true) st) _ _ _ _ _ _ h
  | unsetBit =>
    simp only [Bitset.Spec.fn] at h
    rw [show (fun s i => sticky (just f) s (i, false)) = sticky (fun i => just f (i, false)) from rfl] at h
    exact unsetBitLoop_sim (fun i st => just_seen f (i, false) st) _ _ _ _ _ _ h
  | bit => exact eachBitLoop_sim (fun i st => just_seen f i st) _ _ _ _ _ _ h

theorem bitsetForEachLoop_error {w : Nat} (sp : Bitset.Spec) (f : Fn E W (Nat × Bool) Unit) (s : Bitset.Words w) (st : W) (x : E) :
    ∀ (k i idx idx' : Nat) (q : W × Except E Unit), Bitset.forEachLoop sp (sticky (just f)) s k i idx (st, .error x) = .ok (idx', q) →
      q = (st, .error x) := by
  intro k
  induction k with
  | zero => intro i idx idx' q h; cases h; rfl
  | succ k ih =>
    intro i idx idx' q h
    obtain ⟨e, he, h⟩ := need_bind h
    obtain ⟨q1, h1, h⟩ := need_bind h
    rw [specFn_error _ _ _ _ _ _ _ _ h1] at h
    exact ih _ _ _ _ h

theorem bitsetForEachLoop_sim {w : Nat} (sp : Bitset.Spec) (f : Fn E W (Nat × Bool) Unit) (s : Bitset.Words w) :
    ∀ (k i idx idx' : Nat) (st : W) (q : W × Except E Unit),
    Bitset.forEachLoop sp (sticky (just f)) s k i idx (st, .ok ()) = .ok (idx', q) →
      bitsetForEachLoop sp f s k i idx st = Res.of q.1 (q.2.map fun _ => idx') := by
  intro k
  induction k with
  | zero => intro i idx idx' st q h; cases h; rfl
  | succ k ih =>
    intro i idx idx' st q h
    obtain ⟨e, he, h⟩ := need_bind h
    obtain ⟨⟨st1, r1⟩, h1, h⟩ := need_bind h
    unfold bitsetForEachLoop
    simp only [need, he, specFn_sim _ _ _ _ _ _ _ h1]
    cases r1 with
    | ok u => exact ih _ _ _ _ _ h
    | error x => rw [bitsetForEachLoop_error _ _ _ _ _ _ _ _ _ _ h]; rfl

theorem bitsetForEach_sim {w : Nat} (sp : Bitset.Spec) (N : Nat) (f : Fn E W (Nat × Bool) Unit) (s : Bitset.Words w) (st : W)
    (q : W × Except E Unit) (h : Bitset.forEach sp N (sticky (just f)) s (st, .ok ()) = .ok q) :
    bitsetForEach sp N f s st = seen q := by
  obtain ⟨⟨idx, ⟨st1, r1⟩⟩, h1, h⟩ := need_bind h
  obtain ⟨hb, h2, h⟩ := need_bind h
  unfold bitsetForEach
  rw [bitsetForEachLoop_sim _ _ _ _ _ _ _ _ _ h1]
  cases r1 with
  | ok u =>
    simp only [map_ok, of_ok, andThen_ok, need, h2]
    exact specFn_sim _ _ _ _ _ _ _ h
  | error x => rw [specFn_error _ _ _ _ _ _ _ _ h]; rfl

theorem bitsetReduceLoop_error {w : Nat} (act : Nat → Act E W β) (st : W) (x : E) :
    ∀ (es : Bitset.Words w) (i : Nat) (q : W × Except E β),
    Bitset.transformReduceLoop (fun p => p) (sticky act) es i (st, .error x) = .ok q → q = (st, .error x) := by
  intro es
  induction es with
  | nil => intro i q h; cases h; rfl
  | cons e es ih =>
    intro i q h
    obtain ⟨q1, h1, h⟩ := need_bind h
    rw [setBitLoop_error act _ _ _ _ _ _ h1] at h
    exact ih _ _ h

theorem bitsetReduceLoop_sim {w : Nat} (f : Fn E W Nat τ) (r : Fn E W (β × τ) β) :
    ∀ (es : Bitset.Words w) (i : Nat) (acc : β) (st : W) (q : W × Except E β),
    Bitset.transformReduceLoop (fun p => p) (sticky (callAndReduce r f)) es i (st, .ok acc) = .ok q →
      bitsetReduceLoop f r es i acc st = seen q := by
  intro es
  induction es with
  | nil => intro i acc st q h; cases h; rfl
  | cons e es ih =>
    intro i acc st q h
    obtain ⟨⟨st1, r1⟩, h1, h⟩ := need_bind h
    unfold bitsetReduceLoop
    rw [setBitLoop_sim (act := callAndReduce r f) (by
      intro x p st
      unfold bitsetReduceBody callAndReduce
      rw [call_eq]
      cases hp : f p st with
      | mk st1 y =>
        cases y with
        | ok y => exact call_eq _ _ _
        | error e => rfl) _ _ _ _ _ _ h1]
    cases r1 with
    | ok a => exact ih _ _ _ _ h
    | error x => rw [bitsetReduceLoop_error _ _ _ _ _ _ h]; rfl

/-! ## Theorems -/

/-- **C139, `for_each` of a bitset**, but for `bitset<0>` (`C11_bitset_for_each_empty_undefined`): one call for each set bit, each
unset bit, or each bit, in ascending order, until one throws. -/
theorem C139_bitset_for_each_partial {w : Nat} (hw : StdWidth w) {N : Nat} (hN : 0 < N) {s : Bitset.Words w}
    (hs : s.length = Bitset.storageSize w N) (sp : Bitset.Spec) (f : Fn E W (Nat × Bool) Unit) :
    ∃ b : Nat → Bool, (∀ i, i < N → Bitset.get s i = .ok (b i)) ∧
      ∀ (st st' : W) (r : Except E Unit), Runs ((sp.calls N b).map (just f)) () st st' r →
        bitsetForEach sp N f s st = Res.of st' r := by
  refine ⟨Bitset.bits s, fun i hi => Bitset.get_bits (Bitset.StdWidth.pos hw) (by
    have := Bitset.storage_bounds (Bitset.StdWidth.pos hw) N
    rw [hs]; omega), ?_⟩
  intro st st' r hr
  obtain ⟨b, hb, h⟩ := Bitset.C11_bitset_for_each_partial hw hN hs sp (sticky (just f)) (st, .ok ())
  have hb' : sp.calls N b = sp.calls N (Bitset.bits s) := Bitset.calls_congr sp (fun i hi => by
    have h1 := hb i hi
    rw [Bitset.get_bits (Bitset.StdWidth.pos hw) (by
      have := Bitset.storage_bounds (Bitset.StdWidth.pos hw) N
      rw [hs]; omega)] at h1
    exact (Outcome.ok.inj h1).symm)
  rw [hb', foldl_runs hr] at h
  exact bitsetForEach_sim _ _ _ _ _ _ h

/-- `transform_reduce` of a bitset, exactly: for each stored set bit, in ascending order, `f` and then `r`, until one throws. -/
theorem C139_bitset_transform_reduce_stored {w : Nat} (hw : StdWidth w) (f : Fn E W Nat τ) (r : Fn E W (β × τ) β) (s : Bitset.Words w)
    (init : β) {st st' : W} {q : Except E β}
    (hr : Runs (((List.range (s.length * w)).filter (Bitset.bits s)).map (callAndReduce r f)) init st st' q) :
    bitsetReduceLoop f r s 0 init st = Res.of st' q := by
  have h := Bitset.C12_bitset_transform_reduce_stored hw (fun p => p) (sticky (callAndReduce r f)) (st, .ok init) s
  rw [foldl_runs hr] at h
  exact bitsetReduceLoop_sim _ _ _ _ _ _ _ h

/-- **C139, `transform_reduce` of a bitset** that stores nothing at or above `N` (as after any tidy history, `C12_tidy_histories_clean`): for each
set position in ascending order `f` and then `r`, until one throws. -/
theorem C139_bitset_transform_reduce_partial {w : Nat} (hw : StdWidth w) {N : Nat} {s : Bitset.Words w}
    (hs : s.length = Bitset.storageSize w N)
    (hclean : ∀ j, N ≤ j → j < Bitset.storageSize w N * w → Bitset.get s j = .ok false) (f : Fn E W Nat τ) (r : Fn E W (β × τ) β)
    (init : β) {st st' : W} {q : Except E β}
    (hr : Runs (((List.range N).filter fun i => Bitset.get s i == .ok true).map (callAndReduce r f)) init st st' q) :
    bitsetReduceLoop f r s 0 init st = Res.of st' q := by
  have h := Bitset.C12_bitset_transform_reduce_partial hw hs hclean (fun p => p) (sticky (callAndReduce r f)) (st, .ok init)
  rw [foldl_runs hr] at h
  exact bitsetReduceLoop_sim _ _ _ _ _ _ _ h

/-- A function that notes its argument and throws at 9. -/
private def f9 : Fn String (List Nat) (Nat × Bool) Unit := fun a st =>
  (st ++ [a.1], if a.1 = 9 then .error "nine" else .ok ())

example : bitsetForEach .unsetBit 11 f9 [0xfd#8, 0xf9#8] [] = .threw [1, 9] "nine" := by decide
example : bitsetForEach .setBit 11 f9 [0x05#8, 0x01#8] [] = .ok [0, 2, 8] () := by decide
example : bitsetForEach .bit 9 f9 [0x05#8, 0x01#8] [] = .ok [0, 1, 2, 3, 4, 5, 6, 7, 8] () := by decide
example : Runs ([(1, false), (9, false), (10, false)].map (just f9)) () [] [1, 9] (.error "nine") :=
  .next (w1 := [1]) (x1 := ()) rfl (.stop rfl)

example : bitsetReduceLoop (fun p st => (st ++ [p], if p = 9 then .error "nine" else .ok p))
    (fun (x : Nat × Nat) st => (st ++ [100 + x.2], .ok (x.1 + x.2))) [0x06#8, 0x06#8] 0 0 ([] : List Nat) =
      (.threw [1, 101, 2, 102, 9] "nine" : Res String (List Nat) Nat) := by decide

end Verif.Unwind
