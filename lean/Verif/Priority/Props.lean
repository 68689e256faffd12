import Verif.Priority.Model

/-!
# Overload selection with `priority_t`  (C116)
-/

namespace Verif.Priority

/-- Overload `i` can be called with `priority<n>`: it takes the other arguments and its priority is at most `n`. -/
def Eligible (n : Nat) (cs : List Cand) (i : Nat) : Prop := ∃ c, cs[i]? = some c ∧ c.others ≠ none ∧ c.prio ≤ n

/-- The priority of an overload. -/
def prioOf (cs : List Cand) (i : Nat) : Nat := (cs[i]?.map Cand.prio).getD 0

/-- The other arguments convert equally well for all overloads that take them, as they do if all overloads are templates with
the same kind of parameter. -/
def EquallyWell (cs : List Cand) (r : List Nat) : Prop := ∀ c ∈ cs, c.others = none ∨ c.others = some r

theorem distance_eq (p : Nat) : ∀ fuel n, n ≤ fuel → distance p fuel n = if p ≤ n then some (n - p) else none := by
  intro fuel
  induction fuel with
  | zero => intro n hn; have : n = 0 := by omega
            subst this; simp [distance, eq_comm]
  | succ f ih =>
    intro n hn
    unfold distance
    by_cases h : n = p
    · simp [h]
    · rw [if_neg h]
      cases n with
      | zero => simp [base]; omega
      | succ m =>
        simp only [base, ih m (by omega)]
        by_cases hp : p ≤ m
        · rw [if_pos hp, if_pos (by omega)]; simp; omega
        · rw [if_neg hp, if_neg (by omega)]; rfl

theorem mem_viable {n : Nat} {cs : List Cand} {i : Nat} {r : List Nat} :
    (i, r) ∈ viable n cs ↔ ∃ c r0, cs[i]? = some c ∧ c.others = some r0 ∧ c.prio ≤ n ∧ r = r0 ++ [n - c.prio] := by
  simp only [viable, List.mem_filterMap, Option.map_eq_some_iff, Prod.exists, Prod.mk.injEq]
  constructor
  · rintro ⟨c, j, hm, r', hr, rfl, rfl⟩
    have hm := List.mem_zipIdx_iff_getElem?.mp hm
    simp only [ranks, distance_eq _ _ _ (Nat.le_refl n)] at hr
    by_cases hp : c.prio ≤ n
    · rw [if_pos hp] at hr
      cases ho : c.others with
      | none => simp [ho] at hr
      | some r0 => simp [ho] at hr; exact ⟨c, r0, hm, ho, hp, hr.symm⟩
    · rw [if_neg hp] at hr; simp at hr
  · rintro ⟨c, r0, hc, ho, hp, rfl⟩
    refine ⟨c, i, List.mem_zipIdx_iff_getElem?.mpr hc, _, ?_, rfl, rfl⟩
    simp [ranks, distance_eq _ _ _ (Nat.le_refl n), hp, ho]

theorem viable_fun {n : Nat} {cs : List Cand} {i : Nat} {r s : List Nat} (h : (i, r) ∈ viable n cs) (h' : (i, s) ∈ viable n cs) :
    r = s := by
  obtain ⟨c, r0, hc, ho, _, rfl⟩ := mem_viable.mp h
  obtain ⟨c', r1, hc', ho', _, rfl⟩ := mem_viable.mp h'
  rw [hc] at hc'; cases hc'
  rw [ho] at ho'; cases ho'; rfl

theorem notWorse_append (r : List Nat) (a b : Nat) : notWorse (r ++ [a]) (r ++ [b]) = decide (a ≤ b) := by
  induction r with
  | nil => simp [notWorse]
  | cons x xs ih => simp [notWorse, ih]

theorem someBetter_append (r : List Nat) (a b : Nat) : someBetter (r ++ [a]) (r ++ [b]) = decide (a < b) := by
  induction r with
  | nil => simp [someBetter]
  | cons x xs ih => simp [someBetter, ih]

/-- The condition that `resolve` looks for. -/
def Best (tie : Nat → Nat → Bool) (n : Nat) (cs : List Cand) (i : Nat) (r : List Nat) : Prop :=
  (i, r) ∈ viable n cs ∧ ∀ j s, (j, s) ∈ viable n cs → i = j ∨ better tie i j r s = true

theorem better_asymm {tie : Nat → Nat → Bool} (ht : ∀ i j, tie i j = true → tie j i = false) {i j : Nat} {r s : List Nat}
    (h : better tie i j r s = true) : better tie j i s r = false := by
  have key : ∀ r s : List Nat, someBetter r s = true → notWorse s r = false := by
    intro r
    induction r with
    | nil => intro s h; simp [someBetter] at h
    | cons a as ih =>
      intro s h
      cases s with
      | nil => simp [someBetter] at h
      | cons b bs =>
        simp only [someBetter, Bool.or_eq_true, decide_eq_true_eq] at h
        simp only [notWorse, Bool.and_eq_false_iff, decide_eq_false_iff_not]
        rcases h with h | h
        · left; omega
        · right; exact ih bs h
  simp only [better, Bool.and_eq_true, Bool.or_eq_true] at h
  rcases h with ⟨h1, h2 | ⟨h2, h3⟩⟩
  · simp [better, key r s h2]
  · have : someBetter s r = false := by
      cases hb : someBetter s r with
      | false => rfl
      | true => rw [key s r hb] at h1; cases h1
    simp [better, this, ht i j h3]

theorem resolve_calls {tie : Nat → Nat → Bool} (ht : ∀ i j, tie i j = true → tie j i = false) {n : Nat} {cs : List Cand} {i : Nat} :
    resolve tie n cs = .calls i ↔ ∃ r, Best tie n cs i r := by
  have hall : ∀ i r, ((viable n cs).all (fun (j, s) => i == j || better tie i j r s)) = true ↔
      ∀ j s, (j, s) ∈ viable n cs → i = j ∨ better tie i j r s = true := by
    intro i r; simp [List.all_eq_true]
  unfold resolve
  dsimp only
  cases hf : (viable n cs).find? (fun (i, r) => (viable n cs).all (fun (j, s) => i == j || better tie i j r s)) with
  | none =>
    have hno := List.find?_eq_none.mp hf
    constructor
    · intro h
      dsimp only at h
      split at h <;> simp at h
    · rintro ⟨r, hm, hb⟩
      exact absurd ((hall i r).mpr hb) (hno (i, r) hm)
  | some ir =>
    obtain ⟨i', r'⟩ := ir
    have hm := List.mem_of_find?_eq_some hf
    have hb := (hall i' r').mp (by have := List.find?_some hf; exact this)
    simp only [Result.calls.injEq]
    constructor
    · rintro rfl; exact ⟨r', hm, hb⟩
    · rintro ⟨r, hm2, hb2⟩
      rcases hb i r hm2 with h | h
      · exact h
      · rcases hb2 i' r' hm with h2 | h2
        · exact h2.symm
        · rw [better_asymm ht h] at h2; cases h2

theorem resolve_noMatch {tie : Nat → Nat → Bool} {n : Nat} {cs : List Cand} :
    resolve tie n cs = .noMatch ↔ viable n cs = [] := by
  unfold resolve
  dsimp only
  cases hf : (viable n cs).find? (fun (i, r) => (viable n cs).all (fun (j, s) => i == j || better tie i j r s)) with
  | none =>
    cases hv : viable n cs with
    | nil => simp
    | cons a as => simp
  | some ir =>
    have hm := List.mem_of_find?_eq_some hf
    constructor
    · intro h; simp at h
    · intro h; rw [h] at hm; simp at hm

/-- **C116, calls, partial.** If the other arguments convert equally well, a call with `priority<n>` calls overload `i` exactly if it is the one with the
highest priority among those that can be called; if several share the highest priority, only the usual rules decide between
these, and a lower priority never matters.  Missing: conversions of the other arguments that differ, see
`C116_conversion_violated`. -/
theorem C116_highest_partial {tie : Nat → Nat → Bool} (ht : ∀ i j, tie i j = true → tie j i = false) (n : Nat) {cs : List Cand}
    {r : List Nat} (hr : EquallyWell cs r) (i : Nat) :
    resolve tie n cs = .calls i ↔ Eligible n cs i ∧
      ∀ j, Eligible n cs j → j ≠ i → prioOf cs j < prioOf cs i ∨ (prioOf cs j = prioOf cs i ∧ tie i j = true) := by
  have hel : ∀ (i : Nat) (c : Cand), cs[i]? = some c → ∀ r0, c.others = some r0 → r0 = r := by
    intro i c hc r0 ho
    rcases hr c (List.mem_of_getElem? hc) with h | h
    · rw [h] at ho; cases ho
    · rw [h] at ho; cases ho; rfl
  have hv : ∀ i s, (i, s) ∈ viable n cs ↔ Eligible n cs i ∧ s = r ++ [n - prioOf cs i] := by
    intro i s
    rw [mem_viable]
    constructor
    · rintro ⟨c, r0, hc, ho, hp, rfl⟩
      have := hel i c hc r0 ho
      subst this
      exact ⟨⟨c, hc, by simp [ho], hp⟩, by simp [prioOf, hc]⟩
    · rintro ⟨⟨c, hc, ho, hp⟩, rfl⟩
      obtain ⟨r0, ho⟩ := Option.ne_none_iff_exists'.mp ho
      have := hel i c hc r0 ho
      subst this
      exact ⟨c, r0, hc, ho, hp, by simp [prioOf, hc]⟩
  have hle : ∀ i, Eligible n cs i → prioOf cs i ≤ n := by
    rintro i ⟨c, hc, _, hp⟩; simpa [prioOf, hc] using hp
  rw [resolve_calls ht]
  constructor
  · rintro ⟨s, hm, hb⟩
    obtain ⟨he, rfl⟩ := (hv i s).mp hm
    refine ⟨he, fun j hj hne => ?_⟩
    rcases hb j _ ((hv j _).mpr ⟨hj, rfl⟩) with h | h
    · exact absurd h.symm hne
    · simp only [better, notWorse_append, someBetter_append, Bool.and_eq_true, Bool.or_eq_true, decide_eq_true_eq] at h
      have h1 := hle i he
      have h2 := hle j hj
      rcases h with ⟨h3, h4 | ⟨h4, h5⟩⟩
      · left; omega
      · by_cases heq : prioOf cs j = prioOf cs i
        · exact Or.inr ⟨heq, h5⟩
        · omega
  · rintro ⟨he, hall⟩
    refine ⟨_, (hv i _).mpr ⟨he, rfl⟩, fun j s hjv => ?_⟩
    obtain ⟨hj, rfl⟩ := (hv j s).mp hjv
    by_cases hne : i = j
    · exact Or.inl hne
    · right
      have h1 := hle i he
      have h2 := hle j hj
      simp only [better, notWorse_append, someBetter_append, Bool.and_eq_true, Bool.or_eq_true, decide_eq_true_eq]
      rcases hall j hj (Ne.symm hne) with h | ⟨h, ht'⟩
      · exact ⟨by omega, Or.inl (by omega)⟩
      · exact ⟨by omega, Or.inr ⟨by omega, ht'⟩⟩

/-- test/priority.cpp:7-22 -/
example : EquallyWell [⟨0, some [0]⟩, ⟨1, none⟩, ⟨2, some [0]⟩] [0] ∧
    resolve (fun _ _ => false) 2 [⟨0, some [0]⟩, ⟨1, none⟩, ⟨2, some [0]⟩] = .calls 2 ∧
    resolve (fun _ _ => false) 1 [⟨0, some [0]⟩, ⟨1, none⟩, ⟨2, some [0]⟩] = .calls 0 := by
  refine ⟨by intro c hc; simp at hc; grind, by decide, by decide⟩

/-- **C116, distinct priorities, partial.** If the other arguments convert equally well and no two overloads have the same priority, no call is
ambiguous: it calls the overload with the highest priority that can be called, whatever the rules that would otherwise decide,
and has no match exactly if none can be called. -/
theorem C116_distinct_partial {tie : Nat → Nat → Bool} (ht : ∀ i j, tie i j = true → tie j i = false) (n : Nat) {cs : List Cand}
    {r : List Nat} (hr : EquallyWell cs r) (hd : (cs.map Cand.prio).Nodup) :
    resolve tie n cs ≠ .ambiguous ∧ (resolve tie n cs = .noMatch ↔ ∀ i, ¬ Eligible n cs i) ∧
    ∀ i, resolve tie n cs = .calls i ↔ Eligible n cs i ∧ ∀ j, Eligible n cs j → j ≠ i → prioOf cs j < prioOf cs i := by
  have hno : resolve tie n cs = .noMatch ↔ ∀ i, ¬ Eligible n cs i := by
    rw [resolve_noMatch, List.eq_nil_iff_forall_not_mem]
    constructor
    · rintro h i ⟨c, hc, ho, hp⟩
      obtain ⟨r0, ho⟩ := Option.ne_none_iff_exists'.mp ho
      exact h (i, r0 ++ [n - c.prio]) (mem_viable.mpr ⟨c, r0, hc, ho, hp, rfl⟩)
    · rintro h ⟨i, s⟩ hm
      obtain ⟨c, r0, hc, ho, hp, _⟩ := mem_viable.mp hm
      exact h i ⟨c, hc, by simp [ho], hp⟩
  have hinj : ∀ i j, Eligible n cs i → Eligible n cs j → prioOf cs j = prioOf cs i → j = i := by
    rintro i j ⟨c, hc, _⟩ ⟨c', hc', _⟩ h
    simp [prioOf, hc, hc'] at h
    obtain ⟨hi, ei⟩ := List.getElem?_eq_some_iff.mp hc
    obtain ⟨hj, ej⟩ := List.getElem?_eq_some_iff.mp hc'
    rcases Nat.lt_trichotomy j i with hlt | heq | hlt
    · have := List.pairwise_iff_getElem.mp hd j i (by simpa using hj) (by simpa using hi) hlt
      simp [ei, ej, h] at this
    · exact heq
    · have := List.pairwise_iff_getElem.mp hd i j (by simpa using hi) (by simpa using hj) hlt
      simp [ei, ej, h] at this
  have hcalls : ∀ i, resolve tie n cs = .calls i ↔ Eligible n cs i ∧ ∀ j, Eligible n cs j → j ≠ i → prioOf cs j < prioOf cs i := by
    intro i
    rw [C116_highest_partial ht n hr i]
    constructor
    · rintro ⟨he, h⟩
      refine ⟨he, fun j hj hne => ?_⟩
      rcases h j hj hne with h | ⟨h, _⟩
      · exact h
      · exact absurd (hinj i j he hj h) hne
    · rintro ⟨he, h⟩; exact ⟨he, fun j hj hne => Or.inl (h j hj hne)⟩
  refine ⟨?_, hno, hcalls⟩
  intro hamb
  by_cases hex : ∃ i, Eligible n cs i
  · -- an eligible overload of highest priority exists, since priorities are at most `n`
    have hmax : ∀ k i, Eligible n cs i → n - prioOf cs i ≤ k → ∃ m, Eligible n cs m ∧ ∀ j, Eligible n cs j → prioOf cs j ≤ prioOf cs m := by
      intro k
      induction k with
      | zero =>
        intro i hi hk
        refine ⟨i, hi, fun j hj => ?_⟩
        obtain ⟨c, hc, _, hp⟩ := hj
        have : prioOf cs j ≤ n := by simpa [prioOf, hc] using hp
        omega
      | succ k ih =>
        intro i hi hk
        by_cases h : ∀ j, Eligible n cs j → prioOf cs j ≤ prioOf cs i
        · exact ⟨i, hi, h⟩
        · obtain ⟨j, hj⟩ := Classical.not_forall.mp h
          obtain ⟨hj, hlt⟩ := Classical.not_imp.mp hj
          exact ih j hj (by omega)
    obtain ⟨i, hi⟩ := hex
    obtain ⟨m, hm, hmx⟩ := hmax _ i hi (Nat.le_refl _)
    have := (hcalls m).mpr ⟨hm, fun j hj hne => by
      have h1 := hmx j hj
      have h2 : prioOf cs j ≠ prioOf cs m := fun h => hne (hinj m j hm hj h)
      omega⟩
    rw [hamb] at this; cases this
  · have := hno.mpr (fun i hi => hex ⟨i, hi⟩)
    rw [hamb] at this; cases this

example : ([⟨0, some [0]⟩, ⟨1, none⟩, ⟨2, some [0]⟩].map Cand.prio).Nodup := by decide

/-- **C116 (negation).** Whenever two overloads can be called and the one with the higher priority needs a worse conversion for another
argument, the call is ambiguous, whatever the priorities: with `f(int, priority_t<1>)` and `template <typename T> f(T,
priority_t<0>)` the call `f(1L, priority<1>)` does not compile; likewise `T const &` against `T &&` for a variable. -/
theorem C116_conversion_violated (tie : Nat → Nat → Bool) {n p q a b : Nat} (hp : p < q) (hq : q ≤ n) (hab : a < b) :
    resolve tie n [⟨q, some [b]⟩, ⟨p, some [a]⟩] = .ambiguous := by
  have hr : ∀ m s, m ≤ n → ranks n ⟨m, some s⟩ = some (s ++ [n - m]) := by
    intro m s hm; simp [ranks, distance_eq _ _ _ (Nat.le_refl n), hm]
  have hv : viable n [⟨q, some [b]⟩, ⟨p, some [a]⟩] = [(0, [b, n - q]), (1, [a, n - p])] := by
    simp [viable, hr q [b] hq, hr p [a] (by omega)]
  have h1 : ¬ b ≤ a := by omega
  have h2 : ¬ n - p ≤ n - q := by omega
  simp [resolve, hv, better, notWorse, h1, h2]

example : resolve (fun _ _ => false) 1 [⟨1, some [2]⟩, ⟨0, some [0]⟩] = .ambiguous := by decide

end Verif.Priority
