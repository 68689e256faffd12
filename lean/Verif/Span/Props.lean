import Verif.Span.Model
import Mathlib.Tactic.NormNum

/-!
# `span` (C52, C53)

The specification of a span is the list of the elements it denotes.
-/

namespace Verif.Span

variable {α : Type}

/-- The span denotes exactly the elements `l` of the array `mem`, starting at position `o` of it. -/
def ViewsAt (mem : List α) (s : Span) (o : Nat) (l : List α) : Prop :=
  (s.ptr = some o ∨ (s.ptr = none ∧ l = [])) ∧ size s = l.length ∧ o + l.length ≤ mem.length ∧
    (mem.drop o).take l.length = l

/-- Arrays are smaller than `SIZE_MAX` elements. -/
def Fits (mem : List α) : Prop := mem.length < 18446744073709551615

theorem size_dyn (p : Option Nat) (n : Nat) : size (ofPtrCount dynamicExtent p n) = n := by
  simp [size, ofPtrCount]

theorem size_static {e : Nat} (h : e ≠ dynamicExtent) (p : Option Nat) (n : Nat) : size (ofPtrCount e p n) = e := by
  simp [size, ofPtrCount, h]

theorem size_count {n : Nat} (p : Option Nat) : size (ofPtrCount n p n) = n := by
  unfold size ofPtrCount
  split <;> simp_all

theorem ptrAdd_in {len : Nat} {q : Nat} {k : Int} (h1 : 0 ≤ (q : Int) + k) (h2 : (q : Int) + k ≤ len) :
    ptrAdd len (some q) k = .ok (some ((q : Int) + k).toNat) := by
  unfold ptrAdd; simp only; rw [if_pos ⟨h1, h2⟩]

theorem views_sub {mem : List α} {s : Span} {o : Nat} {l : List α} (h : ViewsAt mem s o l) (k n : Nat)
    (hk : k + n ≤ l.length) (r : Span) (hp : r.ptr = (s.ptr.map (· + k))) (hs : size r = n) :
    ViewsAt mem r (o + k) ((l.drop k).take n) := by
  obtain ⟨h1, h2, h3, h4⟩ := h
  have hlen : ((l.drop k).take n).length = n := by rw [List.length_take, List.length_drop]; omega
  refine ⟨?_, by rw [hs, hlen], by omega, ?_⟩
  · rcases h1 with h1 | ⟨h1, rfl⟩
    · left; rw [hp, h1]; rfl
    · right; refine ⟨by rw [hp, h1]; rfl, ?_⟩
      simp
  · rw [hlen]
    conv_rhs => rw [← h4]
    rw [List.drop_take, List.drop_drop, List.take_take]
    congr 1; omega

/-- How a pointer inside a viewed range moves. -/
theorem ptrAdd_view {mem : List α} {s : Span} {o : Nat} {l : List α} (h : ViewsAt mem s o l) {k : Nat}
    (hk : k ≤ l.length) : ptrAdd mem.length s.ptr k = .ok (s.ptr.map (· + k)) := by
  obtain ⟨h1, h2, h3, h4⟩ := h
  rcases h1 with h1 | ⟨h1, rfl⟩
  · rw [h1, ptrAdd_in (by omega) (by omega)]; simp; omega
  · have : k = 0 := by simpa using hk
    subst this
    rw [h1]; rfl

theorem ptrEnd_view {mem : List α} {s : Span} {o : Nat} {l : List α} (h : ViewsAt mem s o l) {k : Nat}
    (hk : k ≤ l.length) : (ptrAdd mem.length s.ptr (size s) >>= fun e => ptrAdd mem.length e (-k)) =
      .ok (s.ptr.map (· + (l.length - k))) := by
  have h2 := h.2.1
  rw [h2, ptrAdd_view h (Nat.le_refl _), Outcome.ok_bind]
  obtain ⟨h1, _, h3, h4⟩ := h
  rcases h1 with h1 | ⟨h1, rfl⟩
  · rw [h1]
    show ptrAdd mem.length (some (o + l.length)) _ = _
    rw [ptrAdd_in (by omega) (by omega)]; simp; omega
  · have : k = 0 := by simpa using hk
    subst this
    rw [h1]; rfl

/-- **C52, subviews.** If a span denotes the list `l` then: `first(n)`, `last(n)` for `n` up to its length
denote the first and last `n` elements; `subspan(o, c)` for `o` up to its length denotes the `c` elements from
`o`, or all that remain if there are fewer or no count is given; in both the dynamic and (when they
compile) the static forms. -/
theorem C52_span_subviews_partial {mem : List α} (hm : Fits mem) {s : Span} {o : Nat} {l : List α} (h : ViewsAt mem s o l)
    (hext : s.ext ≤ dynamicExtent) :
    (∀ n, n ≤ l.length → ViewsAt mem (firstD n s) o (l.take n) ∧
      (∃ r, firstS n s = some r ∧ ViewsAt mem r o (l.take n))) ∧
    (∀ n, n ≤ l.length → (∃ r, lastD mem.length n s = .ok r ∧ ViewsAt mem r (o + (l.length - n)) (l.drop (l.length - n))) ∧
      (∃ r, lastS mem.length n s = some (.ok r) ∧ ViewsAt mem r (o + (l.length - n)) (l.drop (l.length - n)))) ∧
    (∀ k n, k ≤ l.length → ∃ r, subspanD mem.length k n s = .ok r ∧ ViewsAt mem r (o + k) ((l.drop k).take n)) ∧
    (∀ k n, k + n ≤ l.length → ∃ r, subspanS mem.length k n s = some (.ok r) ∧ ViewsAt mem r (o + k) ((l.drop k).take n)) ∧
    (∀ k, k ≤ l.length → ∃ r, subspanS mem.length k dynamicExtent s = some (.ok r) ∧ ViewsAt mem r (o + k) (l.drop k)) := by
  have h2 := h.2.1
  have h3 := h.2.2.1
  have hl : l.length ≤ s.ext := by
    unfold size at h2
    have : l.length < dynamicExtent := by unfold Fits at hm; unfold dynamicExtent; omega
    split at h2
    · omega
    · omega
  have hld : l.length < dynamicExtent := by unfold Fits at hm; unfold dynamicExtent; omega
  have hsub : ∀ k, k ≤ l.length → szSub (size s) k = l.length - k := by
    intro k hk
    unfold szSub
    rw [h2]
    unfold Fits at hm
    omega
  have hp0 : s.ptr = s.ptr.map (· + 0) := by cases s.ptr <;> rfl
  refine ⟨fun n hn => ⟨?_, ?_⟩, fun n hn => ⟨?_, ?_⟩, fun k n hk => ?_, fun k n hk => ?_, fun k hk => ?_⟩
  · have := views_sub h 0 n (by omega) (firstD n s) hp0 (size_dyn _ _)
    simpa using this
  · refine ⟨ofPtrCount n s.ptr n, by rw [firstS, if_pos (by omega)], ?_⟩
    have := views_sub h 0 n (by omega) (ofPtrCount n s.ptr n) hp0 (size_count _)
    simpa using this
  · refine ⟨ofPtrCount dynamicExtent (s.ptr.map (· + (l.length - n))) n, ?_, ?_⟩
    · unfold lastD
      have := ptrEnd_view h hn
      rw [h2, ptrAdd_view h (Nat.le_refl _), Outcome.ok_bind] at this
      rw [h2, ptrAdd_view h (Nat.le_refl _), Outcome.ok_bind, this]; rfl
    · have := views_sub h (l.length - n) n (by omega) (ofPtrCount dynamicExtent (s.ptr.map (· + (l.length - n))) n) rfl
        (size_dyn _ _)
      rwa [List.take_of_length_le (by rw [List.length_drop]; omega)] at this
  · refine ⟨ofPtrCount n (s.ptr.map (· + (l.length - n))) n, ?_, ?_⟩
    · unfold lastS
      have := ptrEnd_view h hn
      rw [h2, ptrAdd_view h (Nat.le_refl _), Outcome.ok_bind] at this
      rw [if_pos (by omega), h2, ptrAdd_view h (Nat.le_refl _), Outcome.ok_bind, this]; rfl
    · have := views_sub h (l.length - n) n (by omega) (ofPtrCount n (s.ptr.map (· + (l.length - n))) n) rfl (size_count _)
      rwa [List.take_of_length_le (by rw [List.length_drop]; omega)] at this
  · refine ⟨ofPtrCount dynamicExtent (s.ptr.map (· + k)) (min n (l.length - k)), ?_, ?_⟩
    · unfold subspanD
      rw [ptrAdd_view h hk, Outcome.ok_bind, hsub k hk]; rfl
    · have := views_sub h k (min n (l.length - k)) (by omega)
        (ofPtrCount dynamicExtent (s.ptr.map (· + k)) (min n (l.length - k))) rfl (size_dyn _ _)
      have e : (l.drop k).take (min n (l.length - k)) = (l.drop k).take n := by
        rw [List.take_eq_take_iff, List.length_drop]; omega
      rwa [e] at this
  · refine ⟨ofPtrCount n (s.ptr.map (· + k)) n, ?_, views_sub h k n hk _ rfl (size_count _)⟩
    unfold subspanS
    rw [if_pos (by omega), if_pos (by omega), ptrAdd_view h (by omega)]; rfl
  · unfold subspanS
    rw [if_neg (by simp)]
    have e : (l.drop k).take (l.length - k) = l.drop k := List.take_of_length_le (by rw [List.length_drop])
    by_cases hd : s.ext = dynamicExtent
    · rw [if_neg (by simp [hd])]
      refine ⟨ofPtrCount dynamicExtent (s.ptr.map (· + k)) (l.length - k), ?_, ?_⟩
      · rw [ptrAdd_view h hk, hsub k hk]; rfl
      · have := views_sub h k (l.length - k) (by omega)
          (ofPtrCount dynamicExtent (s.ptr.map (· + k)) (l.length - k)) rfl (size_dyn _ _)
        rwa [e] at this
    · have hle : s.ext = l.length := by rw [← h2, size, if_neg hd]
      rw [if_pos hd, if_pos (by omega)]
      refine ⟨ofPtrCount (s.ext - k) (s.ptr.map (· + k)) (s.ext - k), ?_, ?_⟩
      · rw [ptrAdd_view h hk]; rfl
      · have := views_sub h k (s.ext - k) (by omega) (ofPtrCount (s.ext - k) (s.ptr.map (· + k)) (s.ext - k)) rfl
          (size_count _)
        rw [hle, e] at this
        rw [hle]; exact this

/-- **C52, static checks.** On a span of static extent the static forms compile exactly when the requested
elements exist. -/
theorem C52_span_static_checks (len : Nat) (s : Span) (hs : s.ext < dynamicExtent) (k n : Nat) (hn : n < dynamicExtent) :
    ((firstS n s).isSome = decide (n ≤ s.ext)) ∧ ((lastS len n s).isSome = decide (n ≤ s.ext)) ∧
    ((subspanS len k n s).isSome = decide (k + n ≤ s.ext)) ∧
    ((subspanS len k dynamicExtent s).isSome = decide (k ≤ s.ext)) := by
  refine ⟨?_, ?_, ?_, ?_⟩
  · unfold firstS; split <;> simp_all
  · unfold lastS; split <;> simp_all
  · unfold subspanS
    rw [if_pos (by omega)]
    by_cases h : k + n ≤ s.ext
    · rw [if_pos (by omega)]; simp [h]
    · rw [if_neg (by omega)]; simp [h]
  · unfold subspanS
    rw [if_neg (by simp), if_pos (by omega)]
    split <;> simp_all

/-- A step of a chain of subviews. -/
inductive Sub where
  | first (n : Nat)
  | last (n : Nat)
  | subspan (k n : Nat)
  | firstStatic (n : Nat)
  | lastStatic (n : Nat)
  | subspanStatic (k n : Nat)

/-- The code for a step; the static forms must compile. -/
def Sub.run (len : Nat) (s : Span) : Sub → Option (Outcome Span)
  | .first n => some (.ok (firstD n s))
  | .last n => some (lastD len n s)
  | .subspan k n => some (subspanD len k n s)
  | .firstStatic n => (firstS n s).map .ok
  | .lastStatic n => lastS len n s
  | .subspanStatic k n => subspanS len k n s

/-- The same step on lists. -/
def Sub.onList (l : List α) : Sub → List α
  | .first n | .firstStatic n => l.take n
  | .last n | .lastStatic n => l.drop (l.length - n)
  | .subspan k n | .subspanStatic k n => (l.drop k).take n

/-- The precondition of a step. -/
def Sub.Legal (len : Nat) : Sub → Prop
  | .first n | .firstStatic n | .last n | .lastStatic n => n ≤ len
  | .subspan k _ => k ≤ len
  | .subspanStatic k n => k + n ≤ len

/-- A chain of steps. -/
def runSubs (len : Nat) : Span → List Sub → Option (Outcome Span)
  | s, [] => some (.ok s)
  | s, c :: cs =>
    match c.run len s with
    | some (.ok r) => runSubs len r cs
    | some .ub => some .ub
    | some .panic => some .panic
    | none => none

/-- Every step of the chain is legal. -/
def LegalSubs : List α → List Sub → Prop
  | _, [] => True
  | l, c :: cs => c.Legal l.length ∧ LegalSubs (c.onList l) cs

/-- **C52, chains of subviews** of any length compose as sublists and stay inside the original elements. -/
theorem C52_span_chain {mem : List α} (hm : Fits mem) (cs : List Sub) {s : Span} {o : Nat} {l : List α}
    (h : ViewsAt mem s o l) (hext : s.ext ≤ dynamicExtent) (hc : LegalSubs l cs) :
    ∃ r o', runSubs mem.length s cs = some (.ok r) ∧ ViewsAt mem r o' (cs.foldl Sub.onList l) ∧
      o ≤ o' ∧ o' + (cs.foldl Sub.onList l).length ≤ o + l.length := by
  induction cs generalizing s o l with
  | nil => exact ⟨s, o, rfl, h, Nat.le_refl _, Nat.le_refl _⟩
  | cons c cs ih =>
    obtain ⟨hl, hc'⟩ := hc
    obtain ⟨h1, h2, h3, h4, h5⟩ := C52_span_subviews_partial hm h hext
    have hlen : l.length < dynamicExtent := by
      have := h.2.2.1; unfold Fits at hm; unfold dynamicExtent; omega
    have step : ∃ r o1, c.run mem.length s = some (.ok r) ∧ ViewsAt mem r o1 (c.onList l) ∧ r.ext ≤ dynamicExtent ∧
        o ≤ o1 ∧ o1 + (c.onList l).length ≤ o + l.length := by
      cases c with
      | first n => exact ⟨_, _, rfl, (h1 n hl).1, Nat.le_refl _, Nat.le_refl _, by simp only [Sub.onList, List.length_take, List.length_drop]; omega⟩
      | last n =>
        obtain ⟨r, e, hv⟩ := (h2 n hl).1
        refine ⟨r, _, by rw [Sub.run, e], hv, ?_, by omega, by simp only [Sub.onList, List.length_take, List.length_drop]; omega⟩
        unfold lastD at e
        obtain ⟨a, _, e⟩ := Outcome.bind_eq_ok.mp e
        obtain ⟨b, _, e⟩ := Outcome.bind_eq_ok.mp e
        injection e with e; subst e; exact Nat.le_refl _
      | subspan k n =>
        obtain ⟨r, e, hv⟩ := h3 k n hl
        have hl' : k ≤ l.length := hl
        refine ⟨r, _, by rw [Sub.run, e], hv, ?_, by omega, by simp only [Sub.onList, List.length_take, List.length_drop]; omega⟩
        unfold subspanD at e
        obtain ⟨a, _, e⟩ := Outcome.bind_eq_ok.mp e
        injection e with e; subst e; exact Nat.le_refl _
      | firstStatic n =>
        obtain ⟨r, e, hv⟩ := (h1 n hl).2
        have hl' : n ≤ l.length := hl
        refine ⟨r, _, by rw [Sub.run, e]; rfl, hv, ?_, Nat.le_refl _, by simp only [Sub.onList, List.length_take, List.length_drop]; omega⟩
        unfold firstS at e
        split at e
        · injection e with e; subst e; exact Nat.le_of_lt (by show n < _; omega)
        · cases e
      | lastStatic n =>
        obtain ⟨r, e, hv⟩ := (h2 n hl).2
        have hl' : n ≤ l.length := hl
        refine ⟨r, _, by rw [Sub.run, e], hv, ?_, by omega, by simp only [Sub.onList, List.length_take, List.length_drop]; omega⟩
        unfold lastS at e
        split at e
        · injection e with e
          obtain ⟨a, _, e⟩ := Outcome.bind_eq_ok.mp e
          obtain ⟨b, _, e⟩ := Outcome.bind_eq_ok.mp e
          injection e with e; subst e; exact Nat.le_of_lt (by show n < _; omega)
        · cases e
      | subspanStatic k n =>
        obtain ⟨r, e, hv⟩ := h4 k n hl
        have hl' : k + n ≤ l.length := hl
        refine ⟨r, _, by rw [Sub.run, e], hv, ?_, by omega, by simp only [Sub.onList, List.length_take, List.length_drop]; omega⟩
        unfold subspanS at e
        rw [if_pos (by omega)] at e
        split at e
        · injection e with e
          obtain ⟨a, _, e⟩ := Outcome.bind_eq_ok.mp e
          injection e with e; subst e; exact Nat.le_of_lt (by show n < _; omega)
        · cases e
    obtain ⟨r, o1, e, hv, he, ho1, ho2⟩ := step
    obtain ⟨r', o', e', hv', ho3, ho4⟩ := ih hv he hc'
    refine ⟨r', o', by rw [runSubs, e]; exact e', hv', by omega, ?_⟩
    rw [List.foldl_cons]; omega

/-! ### Access -/

theorem readFrom_eq {mem : List α} (n p : Nat) (h : p + n ≤ mem.length) :
    readFrom mem p n = .ok ((mem.drop p).take n) := by
  induction n generalizing p with
  | zero => rfl
  | succ n ih =>
    have hp : p < mem.length := by omega
    rw [readFrom, arrGet_ok.mpr (List.getElem?_eq_getElem hp), Outcome.ok_bind, ih (p + 1) (by omega),
      List.drop_eq_getElem_cons hp]
    rfl

theorem readBack_eq {mem : List α} (n p : Nat) (hn : n ≤ p) (h : p ≤ mem.length) :
    readBack mem p n = .ok ((mem.drop (p - n)).take n).reverse := by
  induction n generalizing p with
  | zero => cases p <;> rfl
  | succ n ih =>
    obtain ⟨p, rfl⟩ : ∃ q, p = q + 1 := ⟨p - 1, by omega⟩
    have hp : p < mem.length := by omega
    rw [readBack, arrGet_ok.mpr (List.getElem?_eq_getElem hp), Outcome.ok_bind, ih p (by omega) (by omega),
      Outcome.ok_bind, Outcome.pure_eq_ok]
    have e : (mem.drop (p + 1 - (n + 1))).take (n + 1) = (mem.drop (p - n)).take n ++ [mem[p]] := by
      rw [show p + 1 - (n + 1) = p - n by omega, List.take_succ_eq_append_getElem (by rw [List.length_drop]; omega)]
      congr 2
      rw [List.getElem_drop]; congr 1; omega
    rw [e, List.reverse_append]; rfl

/-- **C52, access.** Through a span that denotes `l`: `[i]` reads the `i`-th element, `front` and `back` the
first and last, iteration gives `l` and reverse iteration its reverse; assigning through `[i]` changes
exactly that element of `l` and no other element of the array. -/
theorem C52_span_access {mem : List α} {s : Span} {o : Nat} {l : List α} (h : ViewsAt mem s o l) :
    (∀ i (hi : i < l.length), get mem s i = .ok l[i]) ∧
    (∀ hne : l ≠ [], front mem s = .ok (l.head hne) ∧ back mem s = .ok (l.getLast hne)) ∧
    toList mem s = .ok l ∧ toListRev mem s = .ok l.reverse ∧ (empty s = l.isEmpty) ∧
    (∀ i v, i < l.length → ∃ mem', set mem s i v = .ok mem' ∧ ViewsAt mem' s o (l.set i v) ∧
      ∀ j, j ≠ o + i → mem'[j]? = mem[j]?) := by
  have h0 := h
  obtain ⟨h1, h2, h3, h4⟩ := h
  have hget : ∀ i (hi : i < l.length), mem[o + i]? = some l[i] := by
    intro i hi
    have : l[i]? = ((mem.drop o).take l.length)[i]? := by rw [h4]
    rw [List.getElem?_eq_getElem hi, List.getElem?_take, if_pos hi, List.getElem?_drop] at this
    exact this.symm
  have hptr : ∀ i, i < l.length → s.ptr = some o := by
    intro i hi
    rcases h1 with h1 | ⟨_, rfl⟩
    · exact h1
    · simp at hi
  have hacc : ∀ i (hi : i < l.length), get mem s i = .ok l[i] := by
    intro i hi
    unfold get
    rw [hptr i hi]
    exact arrGet_ok.mpr (hget i hi)
  refine ⟨hacc, fun hne => ?_, ?_, ?_, ?_, fun i v hi => ?_⟩
  · have hpos : 0 < l.length := List.length_pos_iff.mpr hne
    refine ⟨?_, ?_⟩
    · unfold front; rw [hacc 0 hpos, List.head_eq_getElem]
    · unfold back
      have := ptrEnd_view h0 (k := 1) hpos
      rw [show ((-(1 : Nat) : Int)) = -1 by rfl] at this
      rw [h2, ptrAdd_view h0 (Nat.le_refl _), Outcome.ok_bind] at this
      rw [h2, ptrAdd_view h0 (Nat.le_refl _), Outcome.ok_bind, this, hptr 0 hpos]
      show arrGet mem (o + (l.length - 1)) = _
      rw [arrGet_ok, hget _ (by omega), List.getLast_eq_getElem]
  · unfold toList
    rw [h2, ptrAdd_view h0 (Nat.le_refl _), Outcome.ok_bind]
    rcases h1 with h1 | ⟨h1, rfl⟩
    · rw [h1]
      show readFrom mem o l.length = _
      rw [readFrom_eq _ _ h3, h4]
    · rw [h1]
  · unfold toListRev
    rw [h2, ptrAdd_view h0 (Nat.le_refl _), Outcome.ok_bind]
    rcases h1 with h1 | ⟨h1, rfl⟩
    · rw [h1]
      show readBack mem (o + l.length) l.length = _
      rw [readBack_eq _ _ (by omega) h3, Nat.add_sub_cancel, h4]
    · rw [h1]; rfl
  · have : empty s = decide (size s = 0) := by unfold empty size; split <;> simp [beq_eq_decide]
    rw [this, h2]; cases l <;> simp
  · refine ⟨mem.set (o + i) v, ?_, ?_, fun j hj => ?_⟩
    · unfold set
      rw [hptr i hi]
      exact arrSet_of_lt (by omega)
    · refine ⟨Or.inl (hptr i hi), by rw [h2, List.length_set], by rw [List.length_set, List.length_set]; exact h3, ?_⟩
      rw [List.length_set]
      apply List.ext_getElem?
      intro j
      rw [List.getElem?_take, List.getElem?_drop, List.getElem?_set, List.getElem?_set]
      by_cases hj : j < l.length
      · rw [if_pos hj]
        by_cases hij : i = j
        · subst hij
          rw [if_pos rfl, if_pos rfl, if_pos (by omega), if_pos hi]
        · rw [if_neg (by omega), if_neg hij, hget j hj, List.getElem?_eq_getElem hj]
      · rw [if_neg hj, if_neg (by omega), List.getElem?_eq_none (by omega)]
    · rw [List.getElem?_set, if_neg (by omega)]

/-- **C52, `get<I>`.** On a span of static extent it compiles exactly when the element exists, as
`tuple_element` does; on a span of dynamic extent it always compiles; it reads the `I`-th element. -/
theorem C52_span_get {mem : List α} {s : Span} {o : Nat} {l : List α} (h : ViewsAt mem s o l) (I : Nat) :
    (s.ext ≠ dynamicExtent → ((getS mem I s).isSome ↔ I < l.length) ∧ (tupleElementOk I s = true ↔ I < l.length)) ∧
    (s.ext = dynamicExtent → getS mem I s ≠ none ∧ tupleElementOk I s = false) ∧
    ∀ hi : I < l.length, getS mem I s = some (.ok l[I]) := by
  have h2 := h.2.1
  refine ⟨fun he => ?_, fun he => ?_, fun hi => ?_⟩
  · rw [size, if_neg he] at h2
    constructor
    · unfold getS; rw [← h2]; by_cases hi : I < s.ext <;> simp [he, hi]
    · unfold tupleElementOk; rw [← h2]; simp [he]
  · simp [getS, tupleElementOk, he]
  · unfold getS
    rw [(C52_span_access h).1 I hi, if_pos]
    by_cases he : s.ext = dynamicExtent
    · exact Or.inl he
    · right; rw [size, if_neg he] at h2; omega

/-- **C52, overlapping views.** After an assignment through one span, any other span over the same array
shows the new value at the position where the two overlap and is otherwise unchanged. -/
theorem C52_span_alias {mem mem' : List α} {s t : Span} {o o' : Nat} {l l' : List α} (hs : ViewsAt mem s o l)
    (ht : ViewsAt mem t o' l') {i : Nat} (hi : i < l.length) {v : α} (hw : set mem s i v = .ok mem') :
    toList mem' t = .ok (if o' ≤ o + i then l'.set (o + i - o') v else l') := by
  obtain ⟨m, e, _, hj⟩ := (C52_span_access hs).2.2.2.2.2 i v hi
  rw [hw] at e; injection e with e; subst e
  have hm' : mem' = mem.set (o + i) v := by
    have hp : s.ptr = some o := by
      rcases hs.1 with h | ⟨_, rfl⟩
      · exact h
      · simp at hi
    have h3 := hs.2.2.1
    unfold set at hw; rw [hp] at hw
    dsimp only at hw
    rw [arrSet_of_lt (by omega)] at hw
    injection hw with hw; exact hw.symm
  have hv : ViewsAt mem' t o' (if o' ≤ o + i then l'.set (o + i - o') v else l') := by
    obtain ⟨h1, h2, h3, h4⟩ := ht
    have hlen : (if o' ≤ o + i then l'.set (o + i - o') v else l').length = l'.length := by split <;> simp
    refine ⟨?_, by rw [hlen, h2], by rw [hlen, hm', List.length_set]; exact h3, ?_⟩
    · rcases h1 with h1 | ⟨h1, rfl⟩
      · exact Or.inl h1
      · right; exact ⟨h1, by simp⟩
    · rw [hlen, hm']
      apply List.ext_getElem?
      intro j
      have h4j : ((mem.drop o').take l'.length)[j]? = l'[j]? := by rw [h4]
      rw [List.getElem?_take, List.getElem?_drop] at h4j
      rw [List.getElem?_take, List.getElem?_drop, List.getElem?_set]
      by_cases hjl : j < l'.length
      · rw [if_pos hjl] at h4j ⊢
        by_cases ho : o' ≤ o + i
        · rw [if_pos ho, List.getElem?_set]
          by_cases e : o + i = o' + j
          · rw [if_pos e, if_pos (by omega), if_pos (by omega), if_pos (by omega)]
          · rw [if_neg e, if_neg (by omega), h4j]
        · rw [if_neg ho, if_neg (by omega), h4j]
      · rw [if_neg hjl, List.getElem?_eq_none]
        rw [hlen]; omega
  exact (C52_span_access hv).2.2.1

/-- **C52, offsets beyond the span** are not checked either: when the array goes on behind the span, `subspan(k)`
with `k` beyond its end gives a span outside the elements it was taken from, of an enormous size. -/
theorem C52_subspan_beyond_violated {mem : List α} (hm : Fits mem) {s : Span} {o : Nat} {l : List α}
    (h : ViewsAt mem s o l) (hp : s.ptr = some o) (k n : Nat) (hk : l.length < k) (hk' : o + k ≤ mem.length) :
    ∃ r, subspanD mem.length k n s = .ok r ∧ r.ptr = some (o + k) ∧
      size r = min n (18446744073709551616 - (k - l.length)) := by
  have h2 := h.2.1
  refine ⟨ofPtrCount dynamicExtent (some (o + k)) (min n (szSub (size s) k)), ?_, rfl, ?_⟩
  · unfold subspanD
    rw [hp, ptrAdd_in (by omega) (by omega), Outcome.ok_bind]
    have : ((o : Int) + k).toNat = o + k := by omega
    rw [this]; rfl
  · rw [size_dyn, h2]
    unfold szSub
    unfold Fits at hm
    congr 1
    omega

/-- **C52, what is not checked.** On a dynamic-extent span of a whole array, the static forms compile for any
count, and a longer count than the span has gives a span with undefined access. -/
theorem C52_static_on_dynamic_undefined (mem : List α) (hm : Fits mem) (n : Nat) (h1 : mem.length < n)
    (h2 : n < dynamicExtent) :
    let s := ofPtrCount dynamicExtent (some 0) mem.length
    ViewsAt mem s 0 mem ∧ ∃ r, firstS n s = some r ∧ size r = n ∧ get mem r mem.length = .ub ∧
      lastS mem.length n s = some .ub := by
  intro s
  refine ⟨⟨Or.inl rfl, size_dyn _ _, by omega, by simp⟩, ofPtrCount n (some 0) n, ?_, size_count _, ?_, ?_⟩
  · unfold firstS; rw [if_pos (by show n ≤ dynamicExtent; omega)]; rfl
  · simp [get, ofPtrCount, arrGet]
  · unfold lastS
    rw [if_pos (by show n ≤ dynamicExtent; omega)]
    have e1 : ptrAdd mem.length s.ptr (size s) = .ok (some mem.length) := by
      rw [show size s = mem.length from size_dyn _ _]
      show ptrAdd mem.length (some 0) _ = _
      rw [ptrAdd_in (by omega) (by omega)]; simp
    rw [e1, Outcome.ok_bind]
    have e2 : ptrAdd mem.length (some mem.length) (-(n : Int)) = .ub := by
      unfold ptrAdd; simp only; rw [if_neg (by omega)]
    rw [e2]; rfl

/-! ## C53 -/

/-- **C53, constructors.** From an array (when it compiles), a contiguous range, a pointer and a count or
another span, a dynamic-extent span denotes all its elements and a static-extent span the first `Extent`
elements provided there are that many; from arrays this is checked at compile time. -/
theorem C53_span_construct_partial {mem : List α} (hm : Fits mem) {ext p n : Nat} (hp : p + n ≤ mem.length)
    (hext : ext = dynamicExtent ∨ ext ≤ n) :
    let l := (mem.drop p).take (if ext = dynamicExtent then n else ext)
    (∃ s, ofArray ext p n = some s ∧ ViewsAt mem s p l) ∧ ViewsAt mem (ofPtrCount ext (some p) n) p l ∧
    ViewsAt mem (ofRange ext p (p + n)) p l ∧
    ∀ s, ViewsAt mem s p ((mem.drop p).take n) → ViewsAt mem (ofSpan ext s) p l := by
  intro l
  have hl : l.length = if ext = dynamicExtent then n else ext := by
    show ((mem.drop p).take _).length = _
    rw [List.length_take, List.length_drop]
    split <;> omega
  have hb : p + l.length ≤ mem.length := by
    rw [hl]; split <;> omega
  have hv : (mem.drop p).take l.length = l := by rw [hl]
  have h1 : ViewsAt mem (ofPtrCount ext (some p) n) p l := by
    refine ⟨Or.inl rfl, ?_, hb, hv⟩
    rw [hl]; unfold size ofPtrCount
    split <;> simp_all
  refine ⟨⟨_, by rw [ofArray, if_pos hext], h1⟩, h1, ?_, fun s hs => ?_⟩
  · have : ofRange ext p (p + n) = ofPtrCount ext (some p) n := by
      unfold ofRange ofPtrs ofPtrCount
      congr 2
      unfold Fits at hm
      omega
    rw [this]; exact h1
  · have hlen : ((mem.drop p).take n).length = n := by rw [List.length_take, List.length_drop]; omega
    obtain ⟨a, b, _, _⟩ := hs
    rw [hlen] at b
    refine ⟨?_, ?_, hb, hv⟩
    · rcases a with a | ⟨a, a'⟩
      · left; exact a
      · right
        refine ⟨a, ?_⟩
        have hn0 : n = 0 := by rw [← hlen, a']; rfl
        apply List.eq_nil_of_length_eq_zero
        rw [hl]
        split <;> omega
    · rw [hl]
      unfold ofSpan
      rw [b]
      unfold size ofPtrCount
      split <;> simp_all

/-- An array shorter than a static extent does not compile. -/
theorem C53_span_array_checked (ext p n : Nat) (h1 : ext ≠ dynamicExtent) (h2 : n < ext) : ofArray ext p n = none := by
  unfold ofArray; rw [if_neg (by omega)]

/-- **C53 fails for ranges and spans.** A static-extent span built from a range or another span (of dynamic
or smaller static extent) with fewer elements has `Extent` elements and reads outside the source; a
default-constructed span of positive static extent is null. -/
theorem C53_span_extent_unchecked_violated (mem : List α) (ext : Nat) (h1 : ext ≠ dynamicExtent)
    (h2 : mem.length < ext) (s : Span) (hs : ViewsAt mem s 0 mem) (hne : mem ≠ []) :
    (size (ofRange ext 0 mem.length) = ext ∧ get mem (ofRange ext 0 mem.length) mem.length = .ub) ∧
    (size (ofSpan ext s) = ext ∧ get mem (ofSpan ext s) mem.length = .ub) ∧
    (size (default ext) = ext ∧ get mem (default ext) 0 = .ub) := by
  refine ⟨⟨?_, ?_⟩, ⟨?_, ?_⟩, ⟨?_, rfl⟩⟩
  · simp [size, ofRange, ofPtrs, h1]
  · simp [get, ofRange, ofPtrs, arrGet]
  · exact size_static h1 _ _
  · have : s.ptr = some 0 := by
      rcases hs.1 with h | ⟨_, h⟩
      · exact h
      · exact absurd h hne
    simp [get, ofSpan, ofPtrCount, this, arrGet]
  · simp [size, default, h1]

/-- **C53, `as_bytes`.** If the span denotes `l` then `as_bytes` denotes the bytes of the elements of `l` in
order, `size()*sizeof(T)` of them. -/
theorem C53_span_as_bytes {β : Type} (bytes : α → List β) (k : Nat) (hk : 0 < k) (hb : ∀ a, (bytes a).length = k)
    {mem : List α} (hm : mem.length * k < 18446744073709551615) {s : Span} {o : Nat} {l : List α} (h : ViewsAt mem s o l) :
    ViewsAt (mem.flatMap bytes) (asBytes k s) (o * k) (l.flatMap bytes) ∧
    (l.flatMap bytes).length = l.length * k ∧ size (asBytes k s) = size s * k := by
  have hlen : ∀ x : List α, (x.flatMap bytes).length = x.length * k := by
    intro x
    induction x with
    | nil => simp
    | cons a x ih => rw [List.flatMap_cons, List.length_append, ih, hb, List.length_cons, Nat.succ_mul, Nat.add_comm]
  have hdrop : ∀ (x : List α) (n : Nat), (x.flatMap bytes).drop (n * k) = (x.drop n).flatMap bytes := by
    intro x
    induction x with
    | nil => simp
    | cons a x ih =>
      intro n
      cases n with
      | zero => simp
      | succ n =>
        rw [List.flatMap_cons, List.drop_succ_cons, ← ih n, Nat.succ_mul, List.drop_append, hb,
          List.drop_eq_nil_of_le (by rw [hb]; omega), List.nil_append, Nat.add_sub_cancel]
  have htake : ∀ (x : List α) (n : Nat), (x.flatMap bytes).take (n * k) = (x.take n).flatMap bytes := by
    intro x
    induction x with
    | nil => simp
    | cons a x ih =>
      intro n
      cases n with
      | zero => simp
      | succ n =>
        rw [List.flatMap_cons, List.take_succ_cons, List.flatMap_cons, ← ih n, Nat.succ_mul, List.take_append, hb,
          List.take_of_length_le (by rw [hb]; omega), Nat.add_sub_cancel]
  obtain ⟨h1, h2, h3, h4⟩ := h
  have hle : l.length * k ≤ mem.length * k := Nat.mul_le_mul_right k (by omega)
  have hll : l.length ≤ l.length * k := Nat.le_mul_of_pos_right _ hk
  have hsb : sizeBytes k s = l.length * k := by
    rw [sizeBytes, h2]
    rw [Nat.mod_eq_of_lt (by omega)]
  have hsz : size (asBytes k s) = l.length * k := by
    unfold asBytes
    split
    · rw [hsb]; exact size_dyn _ _
    · rw [hsb]; exact size_count _
  have hptr : (asBytes k s).ptr = s.ptr.map (· * k) := by unfold asBytes; split <;> rfl
  refine ⟨⟨?_, by rw [hsz, hlen], ?_, ?_⟩, hlen l, by rw [hsz, h2]⟩
  · rcases h1 with h1 | ⟨h1, rfl⟩
    · left; rw [hptr, h1]; rfl
    · right; rw [hptr, h1]; exact ⟨rfl, rfl⟩
  · rw [hlen, hlen, ← Nat.add_mul]; exact Nat.mul_le_mul_right k h3
  · rw [hlen, hdrop, htake, h4]

/-- **C53, default construction.** A default-constructed span of dynamic extent, or of extent zero, is empty and null. -/
theorem C53_span_default (mem : List α) :
    ViewsAt mem (default dynamicExtent) 0 [] ∧ ViewsAt mem (default 0) 0 [] ∧
    (default dynamicExtent).ptr = none ∧ empty (default dynamicExtent) = true := by
  refine ⟨⟨Or.inr ⟨rfl, rfl⟩, by simp [size, default], by simp, by simp⟩,
    ⟨Or.inr ⟨rfl, rfl⟩, by simp [size, default, dynamicExtent], by simp, by simp⟩, rfl, by simp [empty, size, default]⟩

/-- **C53, the extent of `as_bytes`.** The span of bytes has a dynamic extent exactly when the span has, and otherwise the static
extent `Extent * sizeof(T)`. -/
theorem C53_span_as_bytes_extent (k : Nat) (s : Span) (h : size s * k < 18446744073709551615) :
    (s.ext = dynamicExtent → (asBytes k s).ext = dynamicExtent) ∧
    (s.ext ≠ dynamicExtent → (asBytes k s).ext = s.ext * k ∧ (asBytes k s).ext ≠ dynamicExtent) := by
  constructor
  · intro he; simp [asBytes, he, ofPtrCount]
  · intro he
    have hz : size s = s.ext := by simp [size, he]
    have : sizeBytes k s = s.ext * k := by rw [sizeBytes, hz, Nat.mod_eq_of_lt (by rw [← hz]; omega)]
    have e : (asBytes k s).ext = s.ext * k := by simp [asBytes, he, ofPtrCount, this]
    refine ⟨e, ?_⟩
    rw [e, ← hz]
    exact Nat.ne_of_lt h

/-! ### Non-vacuity -/

example : ViewsAt [10, 20, 30, 40] (ofPtrCount dynamicExtent (some 1) 3) 1 [20, 30, 40] ∧ Fits [10, 20, 30, 40] := by
  refine ⟨⟨Or.inl rfl, size_dyn _ _, by decide, rfl⟩, by simp [Fits]⟩

example : LegalSubs [10, 20, 30, 40] [.subspan 1 7, .lastStatic 2, .first 1] ∧
    [Sub.subspan 1 7, .lastStatic 2, .first 1].foldl Sub.onList [10, 20, 30, 40] = [30] := by
  simp [LegalSubs, Sub.Legal, Sub.onList]

example : ∃ mem', set [10, 20, 30, 40] (ofPtrCount dynamicExtent (some 1) 3) 1 99 = .ok mem' ∧
    toList mem' (ofPtrCount 2 (some 2) 2) = .ok [99, 40] := by
  refine ⟨[10, 20, 99, 40], rfl, ?_⟩
  exact C52_span_alias (l := [20, 30, 40]) (l' := [30, 40]) (o := 1) (o' := 2) (i := 1) (v := 99)
    (mem := [10, 20, 30, 40]) (s := ofPtrCount dynamicExtent (some 1) 3)
    ⟨Or.inl rfl, size_dyn _ _, by decide, rfl⟩ ⟨Or.inl rfl, size_count _, by decide, rfl⟩ (by decide) rfl

example : ViewsAt [10, 20] (ofPtrCount 2 (some 0) 2) 0 [10, 20] := ⟨Or.inl rfl, size_count _, by decide, rfl⟩

end Verif.Span
