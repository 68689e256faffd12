import Verif.Algorithm.Lemmas

/-!
# Iterator algorithms (C47, C48, C49, C50)

`shift its i` is the list of the positions at distance `i` from the start of each range.  The general
theorems are about operations that get references and may change any element; they say which calls are made
on which positions, in which order.  The theorems about operations that take their arguments by value follow:
`Rows mem its n row` says that `row i` is the list of the elements at distance `i` from the start of each
range.  `resultAt`/`stateAt` are the results and side effects of calling an operation on `row 0, row 1, ...`
in order.
-/

namespace Verif.Algorithm

variable {α β τ σ : Type}

/-- The operation does not change the number of elements in memory. -/
def Keeps (op : List Nat → World α σ → World α σ) : Prop := ∀ ps w, (op ps w).1.length = w.1.length

/-- The same for an operation with a result. -/
def Keeps' (op : List Nat → World α σ → β × World α σ) : Prop := ∀ ps w, (op ps w).2.1.length = w.1.length

/-! ## Specifications -/

/-- Calls `0..n-1` of `transform`: call, then write the result. -/
def transformSpec (op : List Nat → World α σ → α × World α σ) (its : List Nat) (d n : Nat) (w : World α σ) : World α σ :=
  (List.range n).foldl (fun w i => let r := op (shift its i) w; (r.2.1.set (d + i) r.1, r.2.2)) w

/-- Calls `0..n-1` of `for_each`. -/
def forEachSpec (op : List Nat → World α σ → World α σ) (its : List Nat) (n : Nat) (w : World α σ) : World α σ :=
  (List.range n).foldl (fun w i => op (shift its i) w) w

/-- Calls `0..n-1` of `transform_reduce`: a left fold. -/
def reduceSpec (rop : β → τ → World α σ → β × World α σ) (top : List Nat → World α σ → τ × World α σ)
    (its : List Nat) (n : Nat) (init : β) (w : World α σ) : β × World α σ :=
  (List.range n).foldl (fun acc i => let t := top (shift its i) acc.2; rop acc.1 t.1 t.2) (init, w)

theorem transformSpec_succ (op : List Nat → World α σ → α × World α σ) (its : List Nat) (d n : Nat) (w : World α σ) :
    transformSpec op its d (n + 1) w = (let v := transformSpec op its d n w
      let r := op (shift its n) v
      (r.2.1.set (d + n) r.1, r.2.2)) := by
  unfold transformSpec
  rw [List.range_succ, List.foldl_append]; rfl

theorem forEachSpec_succ (op : List Nat → World α σ → World α σ) (its : List Nat) (n : Nat) (w : World α σ) :
    forEachSpec op its (n + 1) w = op (shift its n) (forEachSpec op its n w) := by
  unfold forEachSpec
  rw [List.range_succ, List.foldl_append]; rfl

theorem reduceSpec_succ (rop : β → τ → World α σ → β × World α σ) (top : List Nat → World α σ → τ × World α σ)
    (its : List Nat) (n : Nat) (init : β) (w : World α σ) :
    reduceSpec rop top its (n + 1) init w = (let a := reduceSpec rop top its n init w
      let t := top (shift its n) a.2
      rop a.1 t.1 t.2) := by
  unfold reduceSpec
  rw [List.range_succ, List.foldl_append]; rfl

theorem transformSpec_length {op : List Nat → World α σ → α × World α σ} (hop : Keeps' op) (its : List Nat)
    (d n : Nat) (w : World α σ) : (transformSpec op its d n w).1.length = w.1.length := by
  induction n with
  | zero => rfl
  | succ n ih => rw [transformSpec_succ]; simp only [List.length_set]; rw [hop, ih]

theorem forEachSpec_length {op : List Nat → World α σ → World α σ} (hop : Keeps op) (its : List Nat) (n : Nat)
    (w : World α σ) : (forEachSpec op its n w).1.length = w.1.length := by
  induction n with
  | zero => rfl
  | succ n ih => rw [forEachSpec_succ, hop, ih]

/-- Neither operation of a reduction changes the number of elements in memory. -/
def KeepsR (rop : β → τ → World α σ → β × World α σ) (top : List Nat → World α σ → τ × World α σ) : Prop :=
  Keeps' top ∧ ∀ b x w, (rop b x w).2.1.length = w.1.length

theorem reduceSpec_length {rop : β → τ → World α σ → β × World α σ} {top : List Nat → World α σ → τ × World α σ}
    (hop : KeepsR rop top) (its : List Nat) (n : Nat) (init : β) (w : World α σ) :
    (reduceSpec rop top its n init w).2.1.length = w.1.length := by
  induction n with
  | zero => rfl
  | succ n ih => rw [reduceSpec_succ]; simp only; rw [hop.2, hop.1, ih]

/-! ## The calls -/

theorem transformCall_ok {op : List Nat → World α σ → α × World α σ} (hop : Keeps' op) {w : World α σ} {d : Nat}
    {ps : List Nat} (h : ∀ p ∈ d :: ps, p < w.1.length) :
    transformCall op (w, d) ps = .ok (let r := op ps w; ((r.2.1.set d r.1, r.2.2), d + 1)) := by
  have h1 : derefs w.1 ps = .ok () := derefs_ok.mpr fun p hp => h p (by simp [hp])
  unfold transformCall
  simp only [h1, Outcome.ok_bind]
  rw [arrSet_of_lt (by rw [hop]; exact h d (by simp))]
  rfl

theorem transformCall_ub {op : List Nat → World α σ → α × World α σ} (hop : Keeps' op) {w : World α σ} {d : Nat}
    {ps : List Nat} (h : ¬ ∀ p ∈ d :: ps, p < w.1.length) : transformCall op (w, d) ps = .ub := by
  unfold transformCall
  simp only
  rcases derefs_cases w.1 ps with h1 | h1
  · rw [h1, Outcome.ok_bind]
    have : ¬ d < w.1.length := fun hd => h fun p hp => by
      rcases List.mem_cons.mp hp with rfl | hp
      · exact hd
      · exact derefs_ok.mp h1 p hp
    unfold arrSet
    rw [if_neg (by rw [hop]; exact this)]; rfl
  · rw [h1]; rfl

theorem transformCall_no_panic (op : List Nat → World α σ → α × World α σ) (x : World α σ × Nat) (ps : List Nat) :
    transformCall op x ps ≠ .panic := by
  unfold transformCall
  simp only
  rcases derefs_cases x.1.1 ps with h1 | h1 <;> rw [h1]
  · rw [Outcome.ok_bind]; unfold arrSet; split <;> simp
  · simp

theorem forEachCall_ok {op : List Nat → World α σ → World α σ} {w : World α σ} {ps : List Nat}
    (h : ∀ p ∈ ps, p < w.1.length) : forEachCall op w ps = .ok (op ps w) := by
  unfold forEachCall
  rw [derefs_ok.mpr h]; rfl

theorem forEachCall_ub {op : List Nat → World α σ → World α σ} {w : World α σ} {ps : List Nat}
    (h : ¬ ∀ p ∈ ps, p < w.1.length) : forEachCall op w ps = .ub := by
  unfold forEachCall
  rw [derefs_ub.mpr h]; rfl

theorem forEachCall_no_panic (op : List Nat → World α σ → World α σ) (w : World α σ) (ps : List Nat) :
    forEachCall op w ps ≠ .panic := by
  unfold forEachCall
  rcases derefs_cases w.1 ps with h1 | h1 <;> rw [h1] <;> simp

theorem reduceCall_ok {rop : β → τ → World α σ → β × World α σ} {top : List Nat → World α σ → τ × World α σ}
    {x : β × World α σ} {ps : List Nat} (h : ∀ p ∈ ps, p < x.2.1.length) :
    reduceCall rop top x ps = .ok (let t := top ps x.2; rop x.1 t.1 t.2) := by
  unfold reduceCall
  rw [derefs_ok.mpr h]; rfl

theorem reduceCall_ub {rop : β → τ → World α σ → β × World α σ} {top : List Nat → World α σ → τ × World α σ}
    {x : β × World α σ} {ps : List Nat} (h : ¬ ∀ p ∈ ps, p < x.2.1.length) : reduceCall rop top x ps = .ub := by
  unfold reduceCall
  rw [derefs_ub.mpr h]; rfl

theorem reduceCall_no_panic (rop : β → τ → World α σ → β × World α σ) (top : List Nat → World α σ → τ × World α σ)
    (x : β × World α σ) (ps : List Nat) : reduceCall rop top x ps ≠ .panic := by
  unfold reduceCall
  rcases derefs_cases x.2.1 ps with h1 | h1 <;> rw [h1] <;> simp

/-- The loop states of `transform`. -/
def tSeq (op : List Nat → World α σ → α × World α σ) (its : List Nat) (d : Nat) (w : World α σ) (k : Nat) :
    World α σ × Nat := (transformSpec op its d k w, d + k)

theorem tSeq_step {op : List Nat → World α σ → α × World α σ} (hop : Keeps' op) {its : List Nat} {d : Nat} {w : World α σ}
    {k : Nat} (h : ∀ p ∈ shift (d :: its) k, p < w.1.length) :
    transformCall op (tSeq op its d w k) (shift its k) = .ok (tSeq op its d w (k + 1)) := by
  unfold tSeq
  rw [transformCall_ok hop (by rw [transformSpec_length hop]; exact h), transformSpec_succ]; rfl

theorem tSeq_ub {op : List Nat → World α σ → α × World α σ} (hop : Keeps' op) {its : List Nat} {d : Nat} {w : World α σ}
    {k : Nat} (h : ¬ ∀ p ∈ shift (d :: its) k, p < w.1.length) :
    transformCall op (tSeq op its d w k) (shift its k) = .ub := by
  unfold tSeq
  rw [transformCall_ub hop (by rw [transformSpec_length hop]; exact h)]

theorem fSeq_step {op : List Nat → World α σ → World α σ} (hop : Keeps op) {its : List Nat} {w : World α σ}
    {k : Nat} (h : ∀ p ∈ shift its k, p < w.1.length) :
    forEachCall op (forEachSpec op its k w) (shift its k) = .ok (forEachSpec op its (k + 1) w) := by
  rw [forEachCall_ok (by rw [forEachSpec_length hop]; exact h), forEachSpec_succ]

theorem fSeq_ub {op : List Nat → World α σ → World α σ} (hop : Keeps op) {its : List Nat} {w : World α σ}
    {k : Nat} (h : ¬ ∀ p ∈ shift its k, p < w.1.length) :
    forEachCall op (forEachSpec op its k w) (shift its k) = .ub := by
  rw [forEachCall_ub (by rw [forEachSpec_length hop]; exact h)]

theorem rSeq_step {rop : β → τ → World α σ → β × World α σ} {top : List Nat → World α σ → τ × World α σ}
    (hop : KeepsR rop top) {its : List Nat} {init : β} {w : World α σ} {k : Nat}
    (h : ∀ p ∈ shift its k, p < w.1.length) :
    reduceCall rop top (reduceSpec rop top its k init w) (shift its k) = .ok (reduceSpec rop top its (k + 1) init w) := by
  rw [reduceCall_ok (by rw [reduceSpec_length hop]; exact h), reduceSpec_succ]

theorem rSeq_ub {rop : β → τ → World α σ → β × World α σ} {top : List Nat → World α σ → τ × World α σ}
    (hop : KeepsR rop top) {its : List Nat} {init : β} {w : World α σ} {k : Nat}
    (h : ¬ ∀ p ∈ shift its k, p < w.1.length) :
    reduceCall rop top (reduceSpec rop top its k init w) (shift its k) = .ub := by
  rw [reduceCall_ub (by rw [reduceSpec_length hop]; exact h)]

/-- Either every position visited is in the memory, or there is a first one that is not. -/
theorem fits_or (len n : Nat) (its : List Nat) : n = 0 ∨ Fits len n its ∨
    ∃ k, k < n ∧ (∀ j, j < k → ∀ p ∈ shift its j, p < len) ∧ ¬ ∀ p ∈ shift its k, p < len := by
  by_cases h0 : n = 0
  · exact .inl h0
  by_cases h : Fits len n its
  · exact .inr (.inl h)
  · exact .inr (.inr (not_fits h (by omega)))

theorem fuel_enough {len n first : Nat} {rest : List Nat} (h : n = 0 ∨ Fits len n (first :: rest)) : n ≤ len + 1 := by
  rcases h with h | h
  · omega
  · have := h first (by simp); omega

/-! ## C47 -/

/-- **C47, `transform`, references.** For every operation, however it reads and writes the elements, and all
ranges that lie in the memory, overlapping or not: call `i` gets the elements at distance `i` from the starts
of the ranges as they are at that moment, its result is written at distance `i` of the output before the next
call, and the returned iterators are advanced by the length. -/
theorem C47_transform_calls {op : List Nat → World α σ → α × World α σ} (hop : Keeps' op) (mem : List α) (s : σ)
    (first n d : Nat) (rest : List Nat) (hin : n = 0 ∨ Fits mem.length n (d :: first :: rest)) :
    let w := transformSpec op (first :: rest) d n (mem, s)
    transform op mem s first (first + n) d rest = .ok ⟨w.1, w.2, d + n, shift (first :: rest) n⟩ := by
  intro w
  unfold transform
  have := whileRange_ok (call := transformCall op) (tSeq op (first :: rest) d (mem, s)) n (mem.length + 1) first rest
    (fun k hk => tSeq_step hop (by
      rcases hin with h | h
      · omega
      · exact fits_lt h hk))
    (fuel_enough (hin.imp_right fun h p hp => h p (by simp at hp ⊢; tauto)))
  show (whileRange _ _ _ (tSeq op (first :: rest) d (mem, s) 0) _ _ >>= _) = _
  rw [this]; rfl

/-- **C47, `transform` is undefined exactly if** `last` is not reachable from `first` or a position visited is
not in the memory. -/
theorem C47_transform_ub_iff {op : List Nat → World α σ → α × World α σ} (hop : Keeps' op) (mem : List α) (s : σ)
    (first last d : Nat) (rest : List Nat) :
    transform op mem s first last d rest = .ub ↔
      ¬ (first = last ∨ first < last ∧ Fits mem.length (last - first) (d :: first :: rest)) := by
  by_cases hlt : last < first
  · refine ⟨fun _ => by omega, fun _ => ?_⟩
    unfold transform
    rw [whileRange_past (transformCall_no_panic op) _ _ _ _ _ hlt]; rfl
  · obtain ⟨n, rfl⟩ : ∃ n, last = first + n := ⟨last - first, by omega⟩
    rw [Nat.add_sub_cancel_left]
    rcases fits_or mem.length n (d :: first :: rest) with h | h | ⟨k, h1, h2, h3⟩
    · rw [C47_transform_calls hop mem s first n d rest (.inl h)]
      simp [h]
    · rw [C47_transform_calls hop mem s first n d rest (.inr h)]
      simp only [false_iff, not_not, reduceCtorEq]
      by_cases h0 : n = 0
      · left; omega
      · right; exact ⟨by omega, h⟩
    · refine ⟨fun _ => ?_, fun _ => ?_⟩
      · rintro (hc | ⟨_, hc⟩)
        · omega
        · exact h3 (fits_lt hc h1)
      · unfold transform
        show (whileRange _ _ _ (tSeq op (first :: rest) d (mem, s) 0) _ _ >>= _) = _
        rw [whileRange_ub (call := transformCall op) (tSeq op (first :: rest) d (mem, s)) n k _ first rest h1
          (fun j hj => tSeq_step hop (h2 j hj)) (tSeq_ub hop h3)]
        rfl

/-- **C47, `transform_n`, references.** The same for a count; `n ≤ 0` makes no call. -/
theorem C47_transform_n_calls_partial {t : ITy} {op : List Nat → World α σ → α × World α σ} (hop : Keeps' op) (mem : List α)
    (s : σ) (first d : Nat) (n : Int) (hn : t.Dec n) (rest : List Nat)
    (hin : n ≤ 0 ∨ Fits mem.length n.toNat (d :: first :: rest)) :
    let w := transformSpec op (first :: rest) d n.toNat (mem, s)
    transformN t op mem s first n d rest = .ok ⟨w.1, w.2, d + n.toNat, shift (first :: rest) n.toNat⟩ := by
  intro w
  have hin : n.toNat = 0 ∨ Fits mem.length n.toNat (d :: first :: rest) := hin.imp_left (by omega)
  unfold transformN
  have := whileCount_ok (call := transformCall op) (tSeq op (first :: rest) d (mem, s)) (counts_pos hn) (mem.length + 1)
    (first :: rest) (fun k hk => tSeq_step hop (by
      rcases hin with h | h
      · omega
      · exact fits_lt h hk))
    (fuel_enough (hin.imp_right fun h p hp => h p (by simp at hp ⊢; tauto)))
  show (whileCount _ _ _ _ (tSeq op (first :: rest) d (mem, s) 0) _ _ >>= _) = _
  rw [this]; rfl

/-- **C47, `transform_n` is undefined exactly if** `n--` overflows or a position visited is not in the
memory. -/
theorem C47_transform_n_ub_iff {t : ITy} {op : List Nat → World α σ → α × World α σ} (hop : Keeps' op) (mem : List α)
    (s : σ) (first d : Nat) (n : Int) (hn : t.Rep n) (rest : List Nat) :
    transformN t op mem s first n d rest = .ub ↔
      (t.signed = true ∧ 32 ≤ t.width ∧ n = -2 ^ (t.width - 1)) ∨
      (0 < n ∧ ¬ Fits mem.length n.toNat (d :: first :: rest)) := by
  by_cases hl : t.signed = true ∧ 32 ≤ t.width ∧ n = -2 ^ (t.width - 1)
  · refine ⟨fun _ => .inl hl, fun _ => ?_⟩
    have : t.dec n = .ub := by simp [ITy.dec, hl.1, hl.2.1, hl.2.2]
    unfold transformN whileCount
    rw [this]; rfl
  · have hd : t.Dec n := ⟨hn, hl⟩
    rcases fits_or mem.length n.toNat (d :: first :: rest) with h | h | ⟨k, h1, h2, h3⟩
    · rw [C47_transform_n_calls_partial hop mem s first d n hd rest (.inl (by omega))]
      simp only [reduceCtorEq, false_iff]
      rintro (h' | h')
      · exact hl h'
      · omega
    · rw [C47_transform_n_calls_partial hop mem s first d n hd rest (.inr h)]
      simp only [reduceCtorEq, false_iff]
      rintro (h' | h')
      · exact hl h'
      · exact h'.2 h
    · refine ⟨fun _ => .inr ⟨by omega, fun hc => h3 (fits_lt hc h1)⟩, fun _ => ?_⟩
      unfold transformN
      show (whileCount _ _ _ _ (tSeq op (first :: rest) d (mem, s) 0) _ _ >>= _) = _
      rw [whileCount_ub (call := transformCall op) (tSeq op (first :: rest) d (mem, s)) (counts_pos hd) k _ _ h1
        (fun j hj => tSeq_step hop (h2 j hj)) (tSeq_ub hop h3)]
      rfl

/-- **C47, `for_each`, references.** The operation is called on the corresponding elements in order, as the
previous calls left them, and the iterators of the additional ranges come back advanced by the length. -/
theorem C47_for_each_calls {op : List Nat → World α σ → World α σ} (hop : Keeps op) (w : World α σ) (first n : Nat)
    (rest : List Nat) (hin : n = 0 ∨ Fits w.1.length n (first :: rest)) :
    forEach op w first (first + n) rest = .ok (forEachSpec op (first :: rest) n w, shift rest n) := by
  unfold forEach
  have := whileRange_ok (call := forEachCall op) (fun k => forEachSpec op (first :: rest) k w) n (w.1.length + 1) first rest
    (fun k hk => fSeq_step hop (by
      rcases hin with h | h
      · omega
      · exact fits_lt h hk)) (fuel_enough hin)
  show (whileRange _ _ _ (forEachSpec op (first :: rest) 0 w) _ _ >>= _) = _
  rw [this]; rfl

/-- **C47, `for_each` is undefined exactly if** `last` is not reachable from `first` or a position visited is
not in the memory. -/
theorem C47_for_each_ub_iff {op : List Nat → World α σ → World α σ} (hop : Keeps op) (w : World α σ) (first last : Nat)
    (rest : List Nat) :
    forEach op w first last rest = .ub ↔
      ¬ (first = last ∨ first < last ∧ Fits w.1.length (last - first) (first :: rest)) := by
  by_cases hlt : last < first
  · refine ⟨fun _ => by omega, fun _ => ?_⟩
    unfold forEach
    rw [whileRange_past (forEachCall_no_panic op) _ _ _ _ _ hlt]; rfl
  · obtain ⟨n, rfl⟩ : ∃ n, last = first + n := ⟨last - first, by omega⟩
    rw [Nat.add_sub_cancel_left]
    rcases fits_or w.1.length n (first :: rest) with h | h | ⟨k, h1, h2, h3⟩
    · rw [C47_for_each_calls hop w first n rest (.inl h)]
      simp [h]
    · rw [C47_for_each_calls hop w first n rest (.inr h)]
      simp only [false_iff, not_not, reduceCtorEq]
      by_cases h0 : n = 0
      · left; omega
      · right; exact ⟨by omega, h⟩
    · refine ⟨fun _ => ?_, fun _ => ?_⟩
      · rintro (hc | ⟨_, hc⟩)
        · omega
        · exact h3 (fits_lt hc h1)
      · unfold forEach
        show (whileRange _ _ _ (forEachSpec op (first :: rest) 0 w) _ _ >>= _) = _
        rw [whileRange_ub (call := forEachCall op) (fun k => forEachSpec op (first :: rest) k w) n k _ first rest h1
          (fun j hj => fSeq_step hop (h2 j hj)) (fSeq_ub hop h3)]
        rfl

/-- **C47, `for_each_n`, references.** -/
theorem C47_for_each_n_calls_partial {t : ITy} {op : List Nat → World α σ → World α σ} (hop : Keeps op) (w : World α σ)
    (first : Nat) (n : Int) (hn : t.Dec n) (rest : List Nat) (hin : n ≤ 0 ∨ Fits w.1.length n.toNat (first :: rest)) :
    forEachN t op w first n rest =
      .ok (forEachSpec op (first :: rest) n.toNat w, shift (first :: rest) n.toNat) := by
  have hin : n.toNat = 0 ∨ Fits w.1.length n.toNat (first :: rest) := hin.imp_left (by omega)
  unfold forEachN
  exact whileCount_ok (call := forEachCall op) (fun k => forEachSpec op (first :: rest) k w) (counts_pos hn) (w.1.length + 1)
    (first :: rest) (fun k hk => fSeq_step hop (by
      rcases hin with h | h
      · omega
      · exact fits_lt h hk)) (fuel_enough hin)

/-- **C47, `for_each_n` is undefined exactly if** `n--` overflows or a position visited is not in the
memory. -/
theorem C47_for_each_n_ub_iff {t : ITy} {op : List Nat → World α σ → World α σ} (hop : Keeps op) (w : World α σ)
    (first : Nat) (n : Int) (hn : t.Rep n) (rest : List Nat) :
    forEachN t op w first n rest = .ub ↔
      (t.signed = true ∧ 32 ≤ t.width ∧ n = -2 ^ (t.width - 1)) ∨ (0 < n ∧ ¬ Fits w.1.length n.toNat (first :: rest)) := by
  by_cases hl : t.signed = true ∧ 32 ≤ t.width ∧ n = -2 ^ (t.width - 1)
  · refine ⟨fun _ => .inl hl, fun _ => ?_⟩
    have : t.dec n = .ub := by simp [ITy.dec, hl.1, hl.2.1, hl.2.2]
    unfold forEachN whileCount
    rw [this]; rfl
  · have hd : t.Dec n := ⟨hn, hl⟩
    rcases fits_or w.1.length n.toNat (first :: rest) with h | h | ⟨k, h1, h2, h3⟩
    · rw [C47_for_each_n_calls_partial hop w first n hd rest (.inl (by omega))]
      simp only [reduceCtorEq, false_iff]
      rintro (h' | h')
      · exact hl h'
      · omega
    · rw [C47_for_each_n_calls_partial hop w first n hd rest (.inr h)]
      simp only [reduceCtorEq, false_iff]
      rintro (h' | h')
      · exact hl h'
      · exact h'.2 h
    · refine ⟨fun _ => .inr ⟨by omega, fun hc => h3 (fits_lt hc h1)⟩, fun _ => ?_⟩
      unfold forEachN
      exact whileCount_ub (call := forEachCall op) (fun k => forEachSpec op (first :: rest) k w) (counts_pos hd) k _ _ h1
        (fun j hj => fSeq_step hop (h2 j hj)) (fSeq_ub hop h3)

/-- **C47, the excluded count.** For a signed count of at least 32 bits, the least value makes `n--`
overflow: undefined although no call is due. -/
theorem C47_transform_n_least_undefined {t : ITy} (hs : t.signed = true) (hw : 32 ≤ t.width)
    (op : List Nat → World α σ → α × World α σ) (op' : List Nat → World α σ → World α σ) (mem : List α) (s : σ)
    (first d : Nat) (rest : List Nat) :
    transformN t op mem s first (-2 ^ (t.width - 1)) d rest = .ub ∧
    forEachN t op' (mem, s) first (-2 ^ (t.width - 1)) rest = .ub := by
  have : t.dec (-2 ^ (t.width - 1)) = .ub := by simp [ITy.dec, hs, hw]
  constructor
  · unfold transformN whileCount; rw [this]; rfl
  · unfold forEachN whileCount; rw [this]; rfl

/-! ### Operations that take their arguments by value -/

/-- The argument lists of the calls: the elements at distance `i` from the start of each range. -/
def Rows (mem : List α) (its : List Nat) (n : Nat) (row : Nat → List α) : Prop :=
  ∀ i, i < n → its.map (fun p => mem[p + i]?) = (row i).map some

/-- An operation that gets copies of the elements and changes no element. -/
def byValue (g : List α → σ → β × σ) (ps : List Nat) (w : World α σ) : β × World α σ :=
  let r := g (ps.filterMap fun p => w.1[p]?) w.2
  (r.1, (w.1, r.2))

/-- The same for an operation without a result. -/
def byValue' (g : List α → σ → σ) (ps : List Nat) (w : World α σ) : World α σ :=
  (w.1, g (ps.filterMap fun p => w.1[p]?) w.2)

theorem byValue_keeps (g : List α → σ → β × σ) : Keeps' (byValue g) := fun _ _ => rfl
theorem byValue'_keeps (g : List α → σ → σ) : Keeps (byValue' g) := fun _ _ => rfl

theorem filterMap_row {mem : List α} {its : List Nat} {row : List α}
    (h : its.map (fun p => mem[p]?) = row.map some) : its.filterMap (fun p => mem[p]?) = row := by
  induction its generalizing row with
  | nil => cases row <;> simp_all
  | cons p ps ih =>
    cases row with
    | nil => simp at h
    | cons x xs =>
      simp only [List.map_cons, List.cons.injEq] at h
      rw [List.filterMap_cons, h.1, ih h.2]

theorem rows_shift {mem : List α} {its : List Nat} {n : Nat} {row : Nat → List α} (h : Rows mem its n row) {i : Nat}
    (hi : i < n) : (shift its i).filterMap (fun p => mem[p]?) = row i := by
  apply filterMap_row
  rw [← h i hi, shift, List.map_map]; rfl

theorem rows_exist {mem : List α} {its : List Nat} {n : Nat} (h : Fits mem.length n its) :
    ∃ row, Rows mem its n row := by
  refine ⟨fun i => (shift its i).filterMap fun p => mem[p]?, fun i hi => ?_⟩
  induction its with
  | nil => rfl
  | cons p ps ih =>
    have hp : p + i < mem.length := by have := h p (by simp); omega
    have ih' := ih (fun q hq => h q (by simp [hq]))
    simp only [shift_cons, List.filterMap_cons, List.getElem?_eq_getElem hp, List.map_cons, ih']

/-- The state before call `i` of a sequence of calls with side effects. -/
def stateAt (op : List α → σ → β × σ) (row : Nat → List α) (s : σ) : Nat → σ
  | 0 => s
  | i + 1 => (op (row i) (stateAt op row s i)).2

/-- The result of call `i`. -/
def resultAt (op : List α → σ → β × σ) (row : Nat → List α) (s : σ) (i : Nat) : β :=
  (op (row i) (stateAt op row s i)).1

/-- Where the output range may be: not strictly inside an input range. -/
def NoClobber (d n : Nat) (its : List Nat) : Prop := ∀ p ∈ its, d ≤ p ∨ p + n ≤ d

theorem transformSpec_value (op : List α → σ → α × σ) (n : Nat) (mem : List α) (s : σ) (d : Nat) (its : List Nat)
    (row : Nat → List α) (hrow : Rows mem its n row) (hd : d + n ≤ mem.length) (hc : NoClobber d n its) :
    (transformSpec (byValue op) its d n (mem, s)).2 = stateAt op row s n ∧
    (transformSpec (byValue op) its d n (mem, s)).1.length = mem.length ∧
    ∀ p, (transformSpec (byValue op) its d n (mem, s)).1[p]? =
      if d ≤ p ∧ p < d + n then some (resultAt op row s (p - d)) else mem[p]? := by
  suffices h : ∀ k, k ≤ n → (transformSpec (byValue op) its d k (mem, s)).2 = stateAt op row s k ∧
      (transformSpec (byValue op) its d k (mem, s)).1.length = mem.length ∧
      ∀ p, (transformSpec (byValue op) its d k (mem, s)).1[p]? =
        if d ≤ p ∧ p < d + k then some (resultAt op row s (p - d)) else mem[p]? from h n (Nat.le_refl n)
  intro k
  induction k with
  | zero =>
    intro _
    refine ⟨rfl, rfl, fun p => ?_⟩
    rw [if_neg (by omega)]; rfl
  | succ k ih =>
    intro hk
    obtain ⟨e, hl, hm⟩ := ih (by omega)
    have hargs : (shift its k).filterMap (fun p => (transformSpec (byValue op) its d k (mem, s)).1[p]?) = row k := by
      apply filterMap_row
      rw [← hrow k (by omega), shift, List.map_map]
      apply List.map_congr_left
      intro p hp
      show (transformSpec (byValue op) its d k (mem, s)).1[p + k]? = _
      rw [hm, if_neg]
      have := hc p hp
      omega
    rw [transformSpec_succ]
    simp only [byValue, hargs, e]
    refine ⟨rfl, by rw [List.length_set, hl], fun p => ?_⟩
    rw [List.getElem?_set]
    by_cases hp : d + k = p
    · subst hp
      rw [if_pos rfl, if_pos (by omega), if_pos (by omega)]
      show some (resultAt op row s k) = _
      congr 2; omega
    · rw [if_neg hp, hm]
      by_cases h1 : d ≤ p ∧ p < d + k
      · rw [if_pos h1, if_pos (by omega)]
      · rw [if_neg h1, if_neg (by omega)]

/-- **C47, `transform`.** For every number of ranges that lie in the memory and every output range that does
not start strictly inside an input range (it may be an input range): the operation is called once per
position in order on the corresponding elements, the results are written in order, nothing else changes,
and the returned iterators are advanced by the length. -/
theorem C47_transform (op : List α → σ → α × σ) (mem : List α) (s : σ) (first n d : Nat) (rest : List Nat)
    (hin : Fits mem.length n (first :: rest)) (hd : d + n ≤ mem.length)
    (hc : NoClobber d n (first :: rest)) :
    ∃ row, Rows mem (first :: rest) n row ∧ ∃ mem',
      transform (byValue op) mem s first (first + n) d rest =
        .ok ⟨mem', stateAt op row s n, d + n, (first :: rest).map (· + n)⟩ ∧ mem'.length = mem.length ∧
      ∀ p, mem'[p]? = if d ≤ p ∧ p < d + n then some (resultAt op row s (p - d)) else mem[p]? := by
  obtain ⟨row, hrow⟩ := rows_exist hin
  obtain ⟨h1, h2, h3⟩ := transformSpec_value op n mem s d _ row hrow hd hc
  refine ⟨row, hrow, _, ?_, h2, h3⟩
  rw [← h1]
  exact C47_transform_calls (byValue_keeps op) mem s first n d rest (.inr (by
    intro p hp
    rcases List.mem_cons.mp hp with rfl | hp
    · exact hd
    · exact hin p hp))

/-- **C47, `transform_n`.** The same for a count: `n ≤ 0` makes no call and changes nothing. -/
theorem C47_transform_n_partial {t : ITy} (op : List α → σ → α × σ) (mem : List α) (s : σ) (first d : Nat) (n : Int)
    (hn : t.Dec n) (rest : List Nat) (hin : Fits mem.length n.toNat (first :: rest))
    (hd : d + n.toNat ≤ mem.length) (hc : NoClobber d n.toNat (first :: rest)) :
    ∃ row, Rows mem (first :: rest) n.toNat row ∧ ∃ mem',
      transformN t (byValue op) mem s first n d rest =
        .ok ⟨mem', stateAt op row s n.toNat, d + n.toNat, (first :: rest).map (· + n.toNat)⟩ ∧
      mem'.length = mem.length ∧
      (∀ p, mem'[p]? = if d ≤ p ∧ p < d + n.toNat then some (resultAt op row s (p - d)) else mem[p]?) ∧
      (n ≤ 0 → transformN t (byValue op) mem s first n d rest = .ok ⟨mem, s, d, first :: rest⟩) := by
  obtain ⟨row, hrow⟩ := rows_exist hin
  obtain ⟨h1, h2, h3⟩ := transformSpec_value op n.toNat mem s d _ row hrow hd hc
  refine ⟨row, hrow, _, ?_, h2, h3, fun h => ?_⟩
  · rw [← h1]
    exact C47_transform_n_calls_partial (byValue_keeps op) mem s first d n hn rest (.inr (by
      intro p hp
      rcases List.mem_cons.mp hp with rfl | hp
      · exact hd
      · exact hin p hp))
  · have := C47_transform_n_calls_partial (byValue_keeps op) mem s first d n hn rest (.inl h)
    rw [show n.toNat = 0 by omega, shift_zero] at this
    exact this

theorem forEachSpec_value (op : List α → σ → σ) (n : Nat) (w : World α σ) (its : List Nat) (row : Nat → List α)
    (hrow : Rows w.1 its n row) : forEachSpec (byValue' op) its n w =
      (w.1, ((List.range n).map row).foldl (fun s args => op args s) w.2) := by
  suffices h : ∀ k, k ≤ n → forEachSpec (byValue' op) its k w =
      (w.1, ((List.range k).map row).foldl (fun s args => op args s) w.2) from h n (Nat.le_refl n)
  intro k
  induction k with
  | zero => intro _; rfl
  | succ k ih =>
    intro hk
    rw [forEachSpec_succ, ih (by omega)]
    simp only [byValue', rows_shift hrow (show k < n by omega), List.range_succ, List.map_append, List.foldl_append]
    rfl

/-- **C47, `for_each`.** The operation is called on the corresponding elements in order, and the iterators of
the additional ranges come back advanced by the length. -/
theorem C47_for_each (op : List α → σ → σ) (mem : List α) (s : σ) (first n : Nat) (rest : List Nat)
    (hin : Fits mem.length n (first :: rest)) :
    ∃ row, Rows mem (first :: rest) n row ∧
      forEach (byValue' op) (mem, s) first (first + n) rest =
        .ok ((mem, ((List.range n).map row).foldl (fun s args => op args s) s), rest.map (· + n)) := by
  obtain ⟨row, hrow⟩ := rows_exist hin
  refine ⟨row, hrow, ?_⟩
  rw [C47_for_each_calls (byValue'_keeps op) (mem, s) first n rest (.inr hin), forEachSpec_value op n (mem, s) _ row hrow]
  rfl

/-- **C47, `for_each_n`.** -/
theorem C47_for_each_n_partial {t : ITy} (op : List α → σ → σ) (mem : List α) (s : σ) (first : Nat) (n : Int)
    (hn : t.Dec n) (rest : List Nat) (hin : Fits mem.length n.toNat (first :: rest)) :
    ∃ row, Rows mem (first :: rest) n.toNat row ∧
      forEachN t (byValue' op) (mem, s) first n rest =
        .ok ((mem, ((List.range n.toNat).map row).foldl (fun s args => op args s) s),
          (first :: rest).map (· + n.toNat)) := by
  obtain ⟨row, hrow⟩ := rows_exist hin
  refine ⟨row, hrow, ?_⟩
  rw [C47_for_each_n_calls_partial (byValue'_keeps op) (mem, s) first n hn rest (.inr hin),
    forEachSpec_value op n.toNat (mem, s) _ row hrow]
  rfl

/-! ### Operations that update the element of the first range -/

/-- `[](auto &x, auto... ys) { x = g(x, ys...); }`. -/
def inPlace (g : List α → σ → α × σ) (ps : List Nat) (w : World α σ) : World α σ :=
  match ps with
  | [] => w
  | p :: _ =>
    let r := g (ps.filterMap fun p => w.1[p]?) w.2
    (w.1.set p r.1, r.2)

theorem inPlace_keeps (g : List α → σ → α × σ) : Keeps (inPlace g) := by
  intro ps w
  cases ps with
  | nil => rfl
  | cons p ps => simp [inPlace]

/-- **C47, updating in place.** `for_each` with an operation that assigns to the element of the first range
does what `transform` into that range does, for all ranges: the `i`-th element becomes the result of call `i`
and nothing else changes if no other range starts strictly before the first one and overlaps it. -/
theorem C47_for_each_in_place (g : List α → σ → α × σ) (mem : List α) (s : σ) (first n : Nat) (rest : List Nat)
    (hin : Fits mem.length n (first :: rest)) (hc : NoClobber first n rest) :
    ∃ row, Rows mem (first :: rest) n row ∧ ∃ mem',
      forEach (inPlace g) (mem, s) first (first + n) rest = .ok ((mem', stateAt g row s n), rest.map (· + n)) ∧
      mem'.length = mem.length ∧
      ∀ p, mem'[p]? = if first ≤ p ∧ p < first + n then some (resultAt g row s (p - first)) else mem[p]? := by
  obtain ⟨row, hrow⟩ := rows_exist hin
  have hd : first + n ≤ mem.length := hin first (by simp)
  obtain ⟨h1, h2, h3⟩ := transformSpec_value g n mem s first _ row hrow hd (by
    intro p hp
    rcases List.mem_cons.mp hp with rfl | hp
    · left; omega
    · exact hc p hp)
  refine ⟨row, hrow, _, ?_, h2, h3⟩
  rw [C47_for_each_calls (inPlace_keeps g) (mem, s) first n rest (.inr hin), ← h1]
  have : ∀ k, forEachSpec (inPlace g) (first :: rest) k (mem, s) = transformSpec (byValue g) (first :: rest) first k (mem, s) := by
    intro k
    induction k with
    | zero => rfl
    | succ k ih => rw [forEachSpec_succ, transformSpec_succ, ih]; rfl
  rw [this]
  rfl

/-! ## C48 -/

theorem advance_eq {len last : Nat} (hl : last ≤ len) (n adv : Nat) (ha : adv ≤ last) :
    advance len last n adv = .ok (min (adv + n) last) := by
  induction n generalizing adv with
  | zero => unfold advance; rw [Nat.add_zero, Nat.min_eq_left ha]
  | succ n ih =>
    unfold advance
    by_cases h : adv = last
    · rw [if_pos h, Nat.min_eq_right (by omega), h]
    · rw [if_neg h, if_pos (by omega), ih (adv + 1) (by omega)]
      congr 2; omega

theorem butlastLoop_ok {op : List Nat → World α σ → World α σ} (x : Nat → World α σ) (n fuel adv : Nat) (its : List Nat)
    (h : ∀ k, k < n → forEachCall op (x k) (shift its k) = .ok (x (k + 1))) (hf : n ≤ fuel) :
    butlastLoop op (adv + n) fuel (x 0) adv its = .ok (x n, shift its n) := by
  induction n generalizing fuel adv its x with
  | zero => unfold butlastLoop; rw [if_pos (by omega), shift_zero]
  | succ n ih =>
    obtain ⟨fuel, rfl⟩ : ∃ k, fuel = k + 1 := ⟨fuel - 1, by omega⟩
    have h0 := h 0 (by omega)
    rw [shift_zero] at h0
    have := ih (fun k => x (k + 1)) fuel (adv + 1) (incs its) (fun k hk => by
      rw [shift_incs]; exact h (k + 1) (by omega)) (by omega)
    unfold butlastLoop
    rw [if_neg (by omega)]
    simp only [h0, Outcome.ok_bind]
    rw [show adv + (n + 1) = adv + 1 + n by omega, this, shift_incs]

theorem fwd_calls {op : List Nat → World α σ → World α σ} (hop : Keeps op) (w : World α σ) (first len : Nat) (n : Int)
    (rest : List Nat) (hm : first + len ≤ w.1.length)
    (hin : len - n.toNat = 0 ∨ Fits w.1.length (len - n.toNat) (first :: rest)) :
    butlastFwd op w first (first + len) n rest =
      .ok (forEachSpec op (first :: rest) (len - n.toNat) w, shift (first :: rest) (len - n.toNat)) := by
  unfold butlastFwd
  rw [advance_eq hm _ _ (by omega), Outcome.ok_bind]
  have e : min (first + n.toNat) (first + len) + (len - n.toNat) = first + len := by omega
  have := butlastLoop_ok (op := op) (fun k => forEachSpec op (first :: rest) k w) (len - n.toNat) (w.1.length + 1)
    (min (first + n.toNat) (first + len)) (first :: rest) (fun k hk => fSeq_step hop (by
      rcases hin with h | h
      · omega
      · exact fits_lt h hk)) (by omega)
  rw [e] at this
  exact this

/-- **C48.** For every length and every `n` from 0 to the largest `ptrdiff_t`, both versions of
`for_each_butlastn` call the operation on the first `max(0, len - n)` corresponding elements in order, as the
previous calls left them, and return the iterators advanced by that amount; so they agree. -/
theorem C48_for_each_butlastn_partial (c : Cat) {op : List Nat → World α σ → World α σ} (hop : Keeps op) (w : World α σ)
    (first len : Nat) (n : Nat) (rest : List Nat) (hm : first + len ≤ w.1.length)
    (hin : Fits w.1.length (len - n) (first :: rest)) (hlen : len < 2 ^ 63) (hn : n < 2 ^ 63) :
    forEachButlastn c op w first (first + len) n rest =
      .ok (forEachSpec op (first :: rest) (len - n) w, shift (first :: rest) (len - n)) := by
  cases c with
  | forward =>
    show butlastFwd _ _ _ _ _ _ = _
    have := fwd_calls hop w first len n rest hm (.inr (by rw [Int.toNat_natCast]; exact hin))
    rw [Int.toNat_natCast] at this
    exact this
  | random =>
    show butlastRand _ _ _ _ _ _ = _
    have h1 : toPtrdiff n = n := by unfold toPtrdiff; omega
    have h2 : subPtrdiff (((first + len : Nat) : Int) - (first : Int)) n = .ok ((len : Int) - n) := by
      have e : ((first + len : Nat) : Int) - (first : Int) = len := by omega
      rw [e]
      unfold subPtrdiff
      rw [if_pos (by omega)]
    unfold butlastRand
    simp only [h1, h2, Outcome.ok_bind]
    have e : ((len : Int) - n).toNat = len - n := by omega
    have := C47_for_each_n_calls_partial (t := ptrdiff) hop w first ((len : Int) - n) (by
      refine ⟨?_, ?_⟩
      · simp only [ITy.Rep, ptrdiff, if_true]
        omega
      · rintro ⟨_, _, h⟩
        simp only [ptrdiff] at h
        omega) rest (.inr (by rw [e]; exact hin))
    rw [e] at this
    exact this

/-- The same for `for_each_butlast`: all but the last element. -/
theorem C48_for_each_butlast (c : Cat) {op : List Nat → World α σ → World α σ} (hop : Keeps op) (w : World α σ)
    (first len : Nat) (rest : List Nat) (hm : first + len ≤ w.1.length)
    (hin : Fits w.1.length (len - 1) (first :: rest)) (hlen : len < 2 ^ 63) :
    forEachButlast c op w first (first + len) rest =
      .ok (forEachSpec op (first :: rest) (len - 1) w, shift (first :: rest) (len - 1)) :=
  C48_for_each_butlastn_partial c hop w first len 1 rest hm hin hlen (by omega)

/-- The same for an operation that takes its arguments by value: what it gets. -/
theorem C48_for_each_butlastn_values (c : Cat) (op : List α → σ → σ) (mem : List α) (s : σ) (first len : Nat) (n : Nat)
    (rest : List Nat) (hin : Fits mem.length len (first :: rest)) (hlen : len < 2 ^ 63) (hn : n < 2 ^ 63) :
    ∃ row, Rows mem (first :: rest) (len - n) row ∧
      forEachButlastn c (byValue' op) (mem, s) first (first + len) n rest =
        .ok ((mem, ((List.range (len - n)).map row).foldl (fun s args => op args s) s),
          (first :: rest).map (· + (len - n))) := by
  have hin' : Fits mem.length (len - n) (first :: rest) := fun p hp => by have := hin p hp; omega
  obtain ⟨row, hrow⟩ := rows_exist hin'
  refine ⟨row, hrow, ?_⟩
  rw [C48_for_each_butlastn_partial c (byValue'_keeps op) (mem, s) first len n rest (hin first (by simp)) hin' hlen hn,
    forEachSpec_value op _ (mem, s) _ row hrow]
  rfl

/-- **C48, the two versions disagree** for `n` from `2^63` up to `SIZE_MAX`, counts that convert to a
negative `ptrdiff_t`: the forward version makes no call, the random access version tries to visit more
elements than there are; if the range ends the memory (as for a whole array) this is undefined. -/
theorem C48_butlastn_large_violated {op : List Nat → World α σ → World α σ} (hop : Keeps op) (w : World α σ) (n : Nat)
    (h1 : 2 ^ 63 ≤ n) (h2 : n < 2 ^ 64) (hm : w.1.length < 2 ^ 63) (rest : List Nat) :
    forEachButlastn .forward op w 0 w.1.length n rest = .ok (w, 0 :: rest) ∧
    forEachButlastn .random op w 0 w.1.length n rest = .ub := by
  constructor
  · show butlastFwd _ _ _ _ _ _ = _
    have e : w.1.length - (n : Int).toNat = 0 := by omega
    have := fwd_calls hop w 0 w.1.length n rest (by omega) (.inl e)
    rw [Nat.zero_add, e, shift_zero] at this
    exact this
  · show butlastRand _ _ _ _ _ _ = _
    have e1 : toPtrdiff n = (n : Int) - 2 ^ 64 := by unfold toPtrdiff; omega
    unfold butlastRand
    simp only [e1]
    unfold subPtrdiff
    split
    · rename_i h
      rw [Outcome.ok_bind]
      refine (C47_for_each_n_ub_iff hop w 0 _ ?_ rest).mpr (.inr ⟨by omega, fun hf => ?_⟩)
      · simp only [ITy.Rep, ptrdiff, if_true]; omega
      · have := hf 0 (by simp)
        omega
    · rfl

/-! ## C49 -/

/-- The specified calls on the positions `first .. first + len - 1`: initial on the first, final on the last of
at least two, medial on those between. -/
def imfSpec (iop mop fop : Nat → World α σ → World α σ) (first len : Nat) (w : World α σ) : World α σ :=
  (List.range len).foldl (fun w i =>
    if i = 0 then iop first w else if i + 1 = len then fop (first + i) w else mop (first + i) w) w

/-- **C49.** For every range in the memory, every iterator category and operations that read and write
whatever they like, the calls are those specified, in order. -/
theorem C49_initial_medial_final_partial (c : Cat) {iop mop fop : Nat → World α σ → World α σ}
    (hi : ∀ p w, (iop p w).1.length = w.1.length) (hmo : ∀ p w, (mop p w).1.length = w.1.length)
    (w : World α σ) (first len : Nat) (hm : first + len ≤ w.1.length) (hlen : len < 2 ^ 63) :
    initialMedialFinal c iop mop fop w first (first + len) = .ok (imfSpec iop mop fop first len w) := by
  have hk : Keeps (unary (α := α) (σ := σ) mop) := by
    intro ps
    induction ps with
    | nil => exact fun _ => rfl
    | cons p ps ih => exact fun w => by rw [unary, List.foldl_cons]; exact (ih _).trans (hmo p w)
  unfold initialMedialFinal
  cases len with
  | zero => rw [if_neg (by simp)]; rfl
  | succ m =>
    rw [if_pos (by omega), derefs_ok.mpr (by simp; omega), Outcome.ok_bind]
    have hl1 : (iop first w).1.length = w.1.length := hi _ _
    have hres := C48_for_each_butlast c hk (iop first w) (first + 1) m [] (by omega)
      (by intro p hp; simp at hp; omega) (by omega)
    rw [show first + (m + 1) = first + 1 + m by omega]
    simp only [hres, Outcome.ok_bind, shift, List.map_cons, List.map_nil]
    have hmed : ∀ k, k ≤ m - 1 → forEachSpec (unary mop) [first + 1] k (iop first w) =
        (List.range (k + 1)).foldl (fun w i =>
          if i = 0 then iop first w else if i + 1 = m + 1 then fop (first + i) w else mop (first + i) w) w := by
      intro k
      induction k with
      | zero => intro _; rfl
      | succ k ih =>
        intro hk
        rw [forEachSpec_succ, ih (by omega), List.range_succ (n := k + 1), List.foldl_append]
        simp only [shift, unary, List.map_cons, List.map_nil, List.foldl_cons, List.foldl_nil]
        rw [if_neg (by omega), if_neg (by omega)]
        congr 1; omega
    rw [hmed _ (Nat.le_refl _)]
    cases m with
    | zero => rw [if_neg (by simp)]; rfl
    | succ m =>
      rw [if_pos (by omega)]
      have hlen' : (forEachSpec (unary mop) [first + 1] m (iop first w)).1.length = w.1.length := by
        rw [forEachSpec_length hk, hl1]
      rw [hmed _ (by omega)] at hlen'
      simp only [Nat.add_sub_cancel] at hlen' ⊢
      rw [derefs_ok.mpr (by rw [hlen']; simp; omega), Outcome.ok_bind, Outcome.pure_eq_ok]
      unfold imfSpec
      rw [List.range_succ (n := m + 1), List.foldl_append]
      simp only [List.foldl_cons, List.foldl_nil]
      rw [if_neg (by omega), if_pos trivial]
      congr 2; omega

/-- What is specified, on values: operations that take their argument by value. -/
def imfValues (iop mop fop : α → σ → σ) (s : σ) : List α → σ
  | [] => s
  | [x] => iop x s
  | x :: y :: l => fop ((y :: l).getLast (by simp)) ((y :: l).dropLast.foldl (fun s z => mop z s) (iop x s))

/-- An operation on one argument taken by value. -/
def byValue1 (g : α → σ → σ) (p : Nat) (w : World α σ) : World α σ :=
  match w.1[p]? with
  | some x => (w.1, g x w.2)
  | none => w

/-- **C49, by value.** For every range `l` in the memory: the initial operation is called on the first
element, the final one on the last of at least two, the medial one on those between, in order. -/
theorem C49_initial_medial_final_values_partial (c : Cat) (iop mop fop : α → σ → σ) (pre l post : List α) (s : σ)
    (hlen : l.length < 2 ^ 63) :
    initialMedialFinal c (byValue1 iop) (byValue1 mop) (byValue1 fop) (pre ++ l ++ post, s) pre.length
      (pre.length + l.length) = .ok (pre ++ l ++ post, imfValues iop mop fop s l) := by
  have hb : ∀ (g : α → σ → σ) p w, (byValue1 g p w).1.length = w.1.length := by
    intro g p w; unfold byValue1; split <;> rfl
  rw [C49_initial_medial_final_partial c (hb iop) (hb mop) (pre ++ l ++ post, s) pre.length l.length
    (by simp only [List.length_append]; omega) hlen]
  have hget : ∀ i, i < l.length → (pre ++ l ++ post)[pre.length + i]? = l[i]? := by
    intro i hi
    rw [List.append_assoc, List.getElem?_append_right (by omega), Nat.add_sub_cancel_left,
      List.getElem?_append_left hi]
  have hcall : ∀ (g : α → σ → σ) i (hi : i < l.length) (s : σ),
      byValue1 g (pre.length + i) (pre ++ l ++ post, s) = (pre ++ l ++ post, g l[i] s) := by
    intro g i hi s
    unfold byValue1
    simp only [hget i hi, List.getElem?_eq_getElem hi]
  congr 1
  cases l with
  | nil => rfl
  | cons x l' =>
    cases l' with
    | nil =>
      have := hcall iop 0 (by simp) s
      simp only [imfSpec, List.length_singleton, List.range_one, List.foldl_cons, List.foldl_nil, if_true]
      exact this
    | cons y l'' =>
      have hpre : ∀ k, k ≤ l''.length → (List.range (k + 1)).foldl (fun w i =>
          if i = 0 then byValue1 iop pre.length w else if i + 1 = (x :: y :: l'').length then
            byValue1 fop (pre.length + i) w else byValue1 mop (pre.length + i) w) (pre ++ x :: y :: l'' ++ post, s) =
          (pre ++ x :: y :: l'' ++ post, ((y :: l'').take k).foldl (fun s z => mop z s) (iop x s)) := by
        intro k
        induction k with
        | zero => intro _; exact hcall iop 0 (by simp) s
        | succ k ih =>
          intro hk
          rw [List.range_succ, List.foldl_append, ih (by omega)]
          simp only [List.foldl_cons, List.foldl_nil]
          rw [if_neg (by omega), if_neg (by simp; omega), hcall mop (k + 1) (by simp; omega)]
          rw [List.take_add_one, List.foldl_append]
          congr 1
          rw [List.getElem?_eq_getElem (by simp; omega)]
          rfl
      show imfSpec _ _ _ _ (l''.length + 1 + 1) _ = _
      unfold imfSpec
      rw [List.range_succ (n := l''.length + 1), List.foldl_append]
      have := hpre l''.length (Nat.le_refl _)
      simp only [List.length_cons] at this
      rw [this]
      simp only [List.foldl_cons, List.foldl_nil]
      rw [if_neg (by omega), if_pos trivial, hcall fop (l''.length + 1) (by simp)]
      simp only [imfValues]
      congr 2
      · rw [List.getLast_eq_getElem]; rfl
      · rw [List.dropLast_eq_take]; rfl

/-! ## C50 -/

/-- **C50, `transform_reduce`.** A left fold over the calls on corresponding elements in order. -/
theorem C50_transform_reduce {rop : β → τ → World α σ → β × World α σ} {top : List Nat → World α σ → τ × World α σ}
    (hop : KeepsR rop top) (w : World α σ) (init : β) (first n : Nat) (rest : List Nat)
    (hin : n = 0 ∨ Fits w.1.length n (first :: rest)) :
    transformReduce rop top w init first (first + n) rest = .ok (reduceSpec rop top (first :: rest) n init w) := by
  unfold transformReduce
  have := whileRange_ok (call := reduceCall rop top) (fun k => reduceSpec rop top (first :: rest) k init w) n
    (w.1.length + 1) first rest (fun k hk => rSeq_step hop (by
      rcases hin with h | h
      · omega
      · exact fits_lt h hk)) (fuel_enough hin)
  show (whileRange _ _ _ (reduceSpec rop top (first :: rest) 0 init w) _ _ >>= _) = _
  rw [this]; rfl

/-- **C50, `transform_reduce` is undefined exactly if** `last` is not reachable from `first` or a position
visited is not in the memory. -/
theorem C50_transform_reduce_ub_iff {rop : β → τ → World α σ → β × World α σ}
    {top : List Nat → World α σ → τ × World α σ} (hop : KeepsR rop top) (w : World α σ) (init : β) (first last : Nat)
    (rest : List Nat) :
    transformReduce rop top w init first last rest = .ub ↔
      ¬ (first = last ∨ first < last ∧ Fits w.1.length (last - first) (first :: rest)) := by
  by_cases hlt : last < first
  · refine ⟨fun _ => by omega, fun _ => ?_⟩
    unfold transformReduce
    rw [whileRange_past (reduceCall_no_panic rop top) _ _ _ _ _ hlt]; rfl
  · obtain ⟨n, rfl⟩ : ∃ n, last = first + n := ⟨last - first, by omega⟩
    rw [Nat.add_sub_cancel_left]
    rcases fits_or w.1.length n (first :: rest) with h | h | ⟨k, h1, h2, h3⟩
    · rw [C50_transform_reduce hop w init first n rest (.inl h)]
      simp [h]
    · rw [C50_transform_reduce hop w init first n rest (.inr h)]
      simp only [false_iff, not_not, reduceCtorEq]
      by_cases h0 : n = 0
      · left; omega
      · right; exact ⟨by omega, h⟩
    · refine ⟨fun _ => ?_, fun _ => ?_⟩
      · rintro (hc | ⟨_, hc⟩)
        · omega
        · exact h3 (fits_lt hc h1)
      · unfold transformReduce
        show (whileRange _ _ _ (reduceSpec rop top (first :: rest) 0 init w) _ _ >>= _) = _
        rw [whileRange_ub (call := reduceCall rop top) (fun k => reduceSpec rop top (first :: rest) k init w) n k _ first
          rest h1 (fun j hj => rSeq_step hop (h2 j hj)) (rSeq_ub hop h3)]
        rfl

theorem reduce_n_counts {t : ITy} {rop : β → τ → World α σ → β × World α σ}
    {top : List Nat → World α σ → τ × World α σ} (hop : KeepsR rop top) (w : World α σ) (init : β) (first : Nat) {k : Nat}
    {n : Int} (hn : Counts t (fun n => decide (n ≠ 0)) k n) (rest : List Nat)
    (hin : k = 0 ∨ Fits w.1.length k (first :: rest)) :
    transformReduceN t rop top w init first n rest = .ok (reduceSpec rop top (first :: rest) k init w) := by
  unfold transformReduceN
  have := whileCount_ok (call := reduceCall rop top) (fun k => reduceSpec rop top (first :: rest) k init w) hn
    (w.1.length + 1) (first :: rest) (fun k hk => rSeq_step hop (by
      rcases hin with h | h
      · omega
      · exact fits_lt h hk)) (fuel_enough hin)
  show (whileCount _ _ _ _ (reduceSpec rop top (first :: rest) 0 init w) _ _ >>= _) = _
  rw [this]; rfl

/-- **C50, `transform_reduce_n`** for `n ≥ 0`. -/
theorem C50_transform_reduce_n_partial {t : ITy} {rop : β → τ → World α σ → β × World α σ}
    {top : List Nat → World α σ → τ × World α σ} (hop : KeepsR rop top) (w : World α σ) (init : β) (first : Nat) (n : Int)
    (hn : t.Rep n) (h0 : 0 ≤ n) (rest : List Nat) (hin : n = 0 ∨ Fits w.1.length n.toNat (first :: rest)) :
    transformReduceN t rop top w init first n rest = .ok (reduceSpec rop top (first :: rest) n.toNat init w) := by
  have hdec : t.Dec n := ⟨hn, by
    rintro ⟨_, _, h⟩
    have : (0 : Int) < 2 ^ (t.width - 1) := by positivity
    omega⟩
  exact reduce_n_counts hop w init first (counts_ne hdec h0) rest (hin.imp_left (by omega))

/-- **C50 on values**: a left fold of the transformed rows. -/
theorem C50_reduce_values (rop : β → τ → β) (top : List α → τ) (w : World α σ) (init : β) (n : Nat) (its : List Nat)
    (row : Nat → List α) (hrow : Rows w.1 its n row) :
    reduceSpec (fun b x w => (rop b x, w)) (byValue fun args s => (top args, s)) its n init w =
      (((List.range n).map row).foldl (fun b args => rop b (top args)) init, w) := by
  suffices h : ∀ k, k ≤ n → reduceSpec (fun b x w => (rop b x, w)) (byValue fun args s => (top args, s)) its k init w =
      (((List.range k).map row).foldl (fun b args => rop b (top args)) init, w) from h n (Nat.le_refl n)
  intro k
  induction k with
  | zero => intro _; rfl
  | succ k ih =>
    intro hk
    rw [reduceSpec_succ, ih (by omega)]
    simp only [byValue, rows_shift hrow (show k < n by omega), List.range_succ, List.map_append, List.foldl_append]
    rfl

/-- **C50 fails for negative counts**: `transform_reduce_n` with `n < 0` of a type of at least 32 bits does not
return `init`; it never returns normally, whatever the memory, ranges and operations. -/
theorem C50_transform_reduce_n_negative_undefined {t : ITy} (hs : t.signed = true) (hw : 32 ≤ t.width)
    (rop : β → τ → World α σ → β × World α σ) (top : List Nat → World α σ → τ × World α σ) (w : World α σ) (init : β)
    (first : Nat) (n : Int) (hn : n < 0) (rest : List Nat) :
    transformReduceN t rop top w init first n rest = .ub := by
  suffices h : ∀ (fuel : Nat) (n : Int), n < 0 → ∀ (x : β × World α σ) (its : List Nat),
      whileCount t (fun n => decide (n ≠ 0)) (reduceCall rop top) fuel x n its = .ub by
    unfold transformReduceN; rw [h _ n hn]; rfl
  intro fuel
  induction fuel with
  | zero =>
    intro n hn x its
    unfold whileCount ITy.dec
    rw [hs, if_pos rfl, if_pos hw]
    split
    · rfl
    · rw [Outcome.ok_bind, if_pos (by simp; omega)]
  | succ fuel ih =>
    intro n hn x its
    unfold whileCount ITy.dec
    rw [hs, if_pos rfl, if_pos hw]
    split
    · rfl
    · rw [Outcome.ok_bind, if_pos (by simp; omega)]
      simp only
      cases hr : reduceCall rop top x its with
      | ok y => rw [Outcome.ok_bind]; exact ih (n - 1) (by omega) _ _
      | ub => rfl
      | panic => exact absurd hr (reduceCall_no_panic _ _ _ _)

/-- The counts the theorems about `_n` forms are for: the values of the bit patterns of the type. -/
theorem rep_iff_bits (t : ITy) (hw : 0 < t.width) (n : Int) :
    t.Rep n ↔ ∃ b : BitVec t.width, n = if t.signed then b.toInt else (b.toNat : Int) := by
  obtain ⟨sg, w⟩ := t
  obtain ⟨m, rfl⟩ : ∃ m, w = m + 1 := ⟨w - 1, by simp at hw; omega⟩
  have hp : (2 : Int) ^ (m + 1) = 2 * 2 ^ m := by rw [pow_succ]; omega
  have hpos : (0 : Int) < 2 ^ m := by positivity
  have hc : ((2 ^ (m + 1) : Nat) : Int) = 2 * 2 ^ m := by push_cast; exact hp
  cases sg with
  | false =>
    simp only [ITy.Rep, Bool.false_eq_true, if_false]
    constructor
    · rintro ⟨h0, h1⟩
      refine ⟨BitVec.ofInt (m + 1) n, ?_⟩
      rw [BitVec.toNat_ofInt, Int.emod_eq_of_lt h0 (by rw [hc]; omega)]
      omega
    · rintro ⟨b, rfl⟩
      have := b.isLt
      refine ⟨by omega, ?_⟩
      rw [hp, ← hc]
      exact_mod_cast this
  | true =>
    simp only [ITy.Rep, if_true, Nat.add_sub_cancel]
    constructor
    · rintro ⟨h0, h1⟩
      refine ⟨BitVec.ofInt (m + 1) n, ?_⟩
      rw [BitVec.toInt_ofInt, Int.bmod_eq_of_le] <;> rw [hc] <;> omega
    · rintro ⟨b, rfl⟩
      have h1 := @BitVec.toInt_lt (m + 1) b
      have h2 := @BitVec.le_toInt (m + 1) b
      simp only [Nat.add_sub_cancel] at h1 h2
      exact ⟨h2, h1⟩

/-- **C50 fails for negative counts of short types**: with `n < 0` of a signed type of fewer than 32 bits the
count wraps around: the operation is called `2^width + n` times. -/
theorem C50_transform_reduce_n_negative_short_violated {t : ITy} (hs : t.signed = true) (hw0 : 0 < t.width)
    (hw : t.width < 32) {rop : β → τ → World α σ → β × World α σ} {top : List Nat → World α σ → τ × World α σ}
    (hop : KeepsR rop top) (w : World α σ) (init : β) (first : Nat) (n : Int) (hr : t.Rep n) (hn : n < 0)
    (rest : List Nat) (hin : Fits w.1.length (2 ^ t.width + n).toNat (first :: rest)) :
    transformReduceN t rop top w init first n rest =
      .ok (reduceSpec rop top (first :: rest) (2 ^ t.width + n).toNat init w) := by
  refine reduce_n_counts hop w init first ?_ rest (.inr hin)
  have hpow : (2 : Int) ^ t.width = 2 ^ (t.width - 1) + 2 ^ (t.width - 1) := by
    obtain ⟨m, hm⟩ : ∃ m, t.width = m + 1 := ⟨t.width - 1, by omega⟩
    rw [hm, Nat.add_sub_cancel, pow_succ]; omega
  have hp : (0 : Int) < 2 ^ (t.width - 1) := by positivity
  simp only [ITy.Rep, hs, if_true] at hr
  obtain ⟨j, hj⟩ : ∃ j : Nat, n = -2 ^ (t.width - 1) + (j : Int) := ⟨(n + 2 ^ (t.width - 1)).toNat, by omega⟩
  clear hin
  induction j generalizing n with
  | zero =>
    have hd : t.dec n = .ok (2 ^ (t.width - 1) - 1) := by
      unfold ITy.dec
      rw [hs, if_pos rfl, if_pos (by simp [hj]), if_neg (by omega)]
    have hc := counts_ne (t := t) (n := 2 ^ (t.width - 1) - 1)
      ⟨by simp only [ITy.Rep, hs, if_true]; omega, fun h => by omega⟩ (by omega)
    have e : (2 ^ t.width + n).toNat = ((2 : Int) ^ (t.width - 1) - 1).toNat + 1 := by
      rw [hj, hpow]; push_cast; omega
    rw [e]
    exact .more hd (by simp; omega) hc
  | succ j ih =>
    have hd : t.dec n = .ok (n - 1) := by
      unfold ITy.dec
      rw [hs, if_pos rfl, if_neg (by rw [hj]; push_cast; omega)]
    have e : (2 ^ t.width + n).toNat = (2 ^ t.width + (n - 1)).toNat + 1 := by
      rw [hj, hpow]; push_cast; omega
    rw [e]
    push_cast at hj
    exact .more hd (by simp; omega) (ih (n - 1) (by omega) (by omega) (by omega))

/-! ## Instances -/

/-- Two ranges added in place into the first one. -/
example : transform (byValue fun args (s : Nat) => (args.sum, s + 1)) [1, 2, 3, 10, 20, 30] 0 0 3 0 [3] =
    .ok ⟨[11, 22, 33, 10, 20, 30], 3, 3, [3, 6]⟩ := by decide
example : NoClobber 0 3 [0, 3] ∧ Fits 6 3 [0, 3] := by simp [NoClobber, Fits]
/-- An output range inside the input range: each call sees what the previous one wrote. -/
example : transform (byValue fun args (s : Nat) => (args.sum * 2, s)) [1, 0, 0, 0] 0 0 3 1 [] =
    .ok ⟨[1, 2, 4, 8], 0, 4, [3]⟩ := by decide
example : forEach (inPlace fun args (s : Nat) => (args.sum, s + 1)) ([1, 2, 3, 10, 20, 30], 0) 0 3 [3] =
    .ok (([11, 22, 33, 10, 20, 30], 3), [6]) := by decide
example : (⟨true, 32⟩ : ITy).Dec (-5) ∧ (⟨false, 64⟩ : ITy).Dec 0 := by
  constructor <;> simp [ITy.Dec, ITy.Rep]
example : initialMedialFinal .forward (byValue1 fun x s => s ++ [(0, x)]) (byValue1 fun x s => s ++ [(1, x)])
    (byValue1 fun x s => s ++ [(2, x)]) ([7, 8, 9], []) 0 3 = .ok ([7, 8, 9], [(0, 7), (1, 8), (2, 9)]) := by decide
example : KeepsR (σ := Nat) (fun (b : Nat) (x : Nat) w => (b + x, w)) (byValue fun (args : List Nat) s => (args.sum, s)) :=
  ⟨fun _ _ => rfl, fun _ _ _ => rfl⟩

end Verif.Algorithm
