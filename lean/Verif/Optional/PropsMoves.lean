import Verif.Optional.Moves
import Verif.Optional.Props

/-!
# C133: moves of optionals
-/

namespace Verif.Opt

variable {T D ι : Type} [DecidableEq ι]

/-! ## Specification -/

/-- What is known of an optional: that it is empty, that it holds a value, or nothing since its value was moved from. -/
inductive Known (T : Type) where
  | empty
  | holds (v : T)
  | moved

/-- The optional is as is known of it. -/
def Known.Of (V : Val T) : Known T → Optional T → Prop
  | .empty, o => view V o = none
  | .holds v, o => view V o = some v
  | .moved, _ => True

/-- What is known of an optional in which `v` is put: the tombstone makes it empty. -/
def Known.made (V : Val T) (v : T) : Known T :=
  match stored V v with
  | none => .empty
  | some v => .holds v

/-- What remains known of an optional that was moved from: only an empty one is known to be empty. -/
def Known.after : Known T → Known T
  | .empty => .empty
  | _ => .moved

/-- What `has_value` and `*` tell. -/
def Known.told : Known T → Option T
  | .holds v => some v
  | _ => none

/-- Preconditions: a value that was moved from is not looked at, and only a value is taken out. -/
def MOp.Pre (k : ι → Known T) : MOp ι T → Prop
  | .take i => ∃ v, k i = .holds v
  | .valueOr i _ | .orElse i _ | .query i => k i ≠ .moved
  | _ => True

/-- Effects and what is told. -/
def MOp.spec (V : Val T) (k : ι → Known T) : MOp ι T → (ι → Known T) × MOut T
  | .copy i j => (fun n => if n = i then k j else k n, .none)
  | .move i j => (fun n => if n = j then (k j).after else if n = i then k j else k n, .none)
  | .swap i j => (fun n => if n = j then k i else if n = i then k j else k n, .none)
  | .emplace i v => (fun n => if n = i then .made V v else k n, .none)
  | .reset i => (fun n => if n = i then .empty else k n, .none)
  | .take i => (fun n => if n = i then .moved else k n, match k i with | .holds v => .val v | _ => .none)
  | .valueOr i d => (fun n => if n = i then (k i).after else k n, match k i with | .holds v => .val v | _ => .val d)
  | .orElse i v => (fun n => if n = i then (k i).after else k n,
      match k i with | .holds w => .opt (some w) | _ => .opt (stored V v))
  | .query i => (k, .opt (k i).told)

/-- Every operation of the history meets its precondition. -/
def MOp.Admissible (V : Val T) : (ι → Known T) → List (MOp ι T) → Prop
  | _, [] => True
  | k, o :: os => o.Pre k ∧ MOp.Admissible V (o.spec V k).1 os

/-- The specified result of a history. -/
def MOp.specRun (V : Val T) : (ι → Known T) → List (MOp ι T) → (ι → Known T) × List (MOut T)
  | k, [] => (k, [])
  | k, o :: os => ((MOp.specRun V (o.spec V k).1 os).1, (o.spec V k).2 :: (MOp.specRun V (o.spec V k).1 os).2)

/-- Moving from a value that is the tombstone leaves the tombstone. -/
def Mv.KeepsTombstone (M : Mv T) : Prop :=
  ∀ x, M.V.eq x M.V.ts = true → M.V.eq (M.left x) M.V.ts = true ∧ M.V.eq (M.self x) M.V.ts = true

/-! ## Histories -/

theorem view_eq_none {V : Val T} {o : Optional T} : view V o = none ↔ V.eq o.val V.ts = true := by
  unfold view hasValue; cases h : V.eq o.val V.ts <;> simp

theorem of_after {M : Mv T} (hM : M.KeepsTombstone) {k : Known T} {o : Optional T} (h : k.Of M.V o) :
    k.after.Of M.V ⟨M.left o.val⟩ ∧ k.after.Of M.V ⟨M.self o.val⟩ := by
  cases k with
  | empty =>
    have := hM o.val (view_eq_none.mp h)
    exact ⟨view_eq_none.mpr this.1, view_eq_none.mpr this.2⟩
  | holds v => exact ⟨trivial, trivial⟩
  | moved => exact ⟨trivial, trivial⟩

theorem of_made (V : Val T) (v : T) : (Known.made V v).Of V ⟨v⟩ := by
  have := view_stored V v
  unfold ofValue at this
  unfold Known.made
  cases h : stored V v <;> simp [Known.Of, this, h]

theorem step_known {M : Mv T} (hr : M.V.Reflexive) (hM : M.KeepsTombstone) {k : ι → Known T} {s : ι → Optional T}
    (h : ∀ i, (k i).Of M.V (s i)) (o : MOp ι T) (hp : o.Pre k) :
    (∀ i, ((o.spec M.V k).1 i).Of M.V ((o.step M s).1 i)) ∧ (o.step M s).2 = (o.spec M.V k).2 := by
  have told : ∀ i, k i ≠ .moved → report M.V (s i) = (k i).told := by
    intro i hi
    have := h i
    show view M.V (s i) = _
    cases hk : k i with
    | empty => rw [hk] at this; exact this
    | holds v => rw [hk] at this; exact this
    | moved => exact absurd hk hi
  have has : ∀ i, k i ≠ .moved → (hasValue M.V (s i) = true ↔ ∃ v, k i = .holds v) := by
    intro i hi
    have := h i
    cases hk : k i with
    | empty => rw [hk] at this; simp [view_none_iff.mp this]
    | holds v =>
      rw [hk] at this
      have h2 : view M.V (s i) = some v := this
      unfold view at h2; split at h2 <;> simp_all
    | moved => exact absurd hk hi
  have val : ∀ i v, k i = .holds v → (s i).val = v := by
    intro i v hk
    have := h i
    rw [hk] at this
    have h2 : view M.V (s i) = some v := this
    unfold view value at h2; split at h2 <;> simp_all
  cases o with
  | copy i j =>
    refine ⟨fun n => ?_, rfl⟩
    simp only [MOp.spec, MOp.step, put]
    split
    · exact h j
    · exact h n
  | move i j =>
    by_cases hij : i = j
    · subst hij
      refine ⟨fun n => ?_, by simp [MOp.spec, MOp.step]⟩
      simp only [MOp.spec, MOp.step, put, ↓reduceIte]
      split
      · exact (of_after hM (h i)).2
      · exact h n
    · refine ⟨fun n => ?_, by simp [MOp.spec, MOp.step, hij]⟩
      simp only [MOp.spec, MOp.step, put, hij, ↓reduceIte, moveFrom]
      split
      · exact (of_after hM (h j)).1
      · split
        · exact h j
        · exact h n
  | swap i j =>
    refine ⟨fun n => ?_, rfl⟩
    simp only [MOp.spec, MOp.step, put, moveFrom]
    by_cases hij : i = j
    · subst hij
      by_cases hn : n = i
      · subst hn; simp; exact h n
      · simp [hn, put]; exact h n
    · by_cases hn : n = j
      · subst hn; simp; exact h i
      · have hji : ¬ j = i := fun e => hij e.symm
        by_cases hni : n = i
        · subst hni; simp [hn, hji, put]; exact h j
        · simp [hn, hni, hij, put]; exact h n
  | emplace i v =>
    refine ⟨fun n => ?_, rfl⟩
    simp only [MOp.spec, MOp.step, put]
    split
    · exact of_made M.V v
    · exact h n
  | reset i =>
    refine ⟨fun n => ?_, rfl⟩
    simp only [MOp.spec, MOp.step, put]
    split
    · exact view_empty hr
    · exact h n
  | take i =>
    obtain ⟨v, hv⟩ := hp
    refine ⟨fun n => ?_, by simp [MOp.spec, MOp.step, takeValue, hv, val i v hv]⟩
    simp only [MOp.spec, MOp.step, put]
    split
    · trivial
    · exact h n
  | valueOr i d =>
    have hh := has i hp
    cases hk : k i with
    | moved => exact absurd hk hp
    | holds v =>
      have h1 : hasValue M.V (s i) = true := hh.mpr ⟨v, hk⟩
      refine ⟨fun n => ?_, by simp [MOp.spec, MOp.step, valueOrMove, h1, hk, val i v hk]⟩
      simp only [MOp.spec, MOp.step, valueOrMove, h1, ↓reduceIte, put, hk]
      split
      · trivial
      · exact h n
    | empty =>
      have h1 : hasValue M.V (s i) = false := by
        rw [← Bool.not_eq_true, hh]; simp [hk]
      refine ⟨fun n => ?_, by simp [MOp.spec, MOp.step, valueOrMove, h1, hk]⟩
      have := h i
      simp only [MOp.spec, MOp.step, valueOrMove, h1, put, hk]
      split
      · rw [hk] at this; exact this
      · exact h n
  | orElse i v =>
    have hh := has i hp
    cases hk : k i with
    | moved => exact absurd hk hp
    | holds w =>
      have h1 : hasValue M.V (s i) = true := hh.mpr ⟨w, hk⟩
      have h2 := told i hp
      rw [hk] at h2
      refine ⟨fun n => ?_, ?_⟩
      · simp only [MOp.spec, MOp.step, orElseMove, h1, ↓reduceIte, put, hk]
        split
        · trivial
        · exact h n
      · simp only [MOp.spec, MOp.step, orElseMove, h1, ↓reduceIte, hk]
        exact congrArg MOut.opt h2
    | empty =>
      have h1 : hasValue M.V (s i) = false := by
        rw [← Bool.not_eq_true, hh]; simp [hk]
      refine ⟨fun n => ?_, ?_⟩
      · have := h i
        simp only [MOp.spec, MOp.step, orElseMove, h1, put, hk]
        split
        · rw [hk] at this; exact this
        · exact h n
      · simp only [MOp.spec, MOp.step, orElseMove, h1, hk]
        exact congrArg MOut.opt (view_stored M.V v)
  | query i => exact ⟨h, congrArg MOut.opt (told i hp)⟩

/-- **C133, histories, partial.** In every history of copies, moves, swaps and rvalue member functions on any number of optionals, the
destination of a move is what the source was; a source that was empty remains empty; nothing is moved out of an empty optional and what
is told is the value, default or alternative that there was.  Missing: types for which moving from the tombstone does not leave the
tombstone, see the next theorem. -/
theorem C133_moves_partial {M : Mv T} (hr : M.V.Reflexive) (hM : M.KeepsTombstone) (ops : List (MOp ι T)) :
    ∀ {k : ι → Known T} {s : ι → Optional T}, (∀ i, (k i).Of M.V (s i)) → MOp.Admissible M.V k ops →
      (∀ i, ((MOp.specRun M.V k ops).1 i).Of M.V ((MOp.run M s ops).1 i)) ∧
        (MOp.run M s ops).2 = (MOp.specRun M.V k ops).2 := by
  induction ops with
  | nil => intro k s h _; exact ⟨h, rfl⟩
  | cons o os ih =>
    intro k s h ha
    obtain ⟨h1, h2⟩ := step_known hr hM h o ha.1
    obtain ⟨h3, h4⟩ := ih h1 ha.2
    exact ⟨h3, by simp [MOp.run, MOp.specRun, h2, h4]⟩

/-- Pointers that own what they point to: 0 is the null pointer, which is the tombstone and what a move leaves. -/
def owner : Mv Nat := ⟨⟨(· == ·), fun a b => decide (a < b), 0⟩, fun _ => 0, fun _ => 0⟩

/-- Moves keep their tombstone, and a history of moves meets the preconditions. -/
example : owner.V.Reflexive ∧ owner.KeepsTombstone ∧
    MOp.Admissible owner.V (fun _ : Fin 3 => .empty)
      [.emplace 0 7, .move 1 0, .swap 1 2, .query 2, .query 1, .move 0 1, .query 1, .valueOr 2 5, .reset 2, .valueOr 2 5] ∧
    ((MOp.run owner (fun _ : Fin 3 => empty owner.V)
      [.emplace 0 7, .move 1 0, .swap 1 2, .query 2, .query 1, .move 0 1, .query 1, .valueOr 2 5, .reset 2, .valueOr 2 5]).2 =
      [.none, .none, .none, .opt (some 7), .opt none, .none, .opt none, .val 7, .none, .val 5]) := by
  refine ⟨rfl, ?_, ?_, rfl⟩
  · intro x _; exact ⟨rfl, rfl⟩
  · simp [MOp.Admissible, MOp.Pre, MOp.spec, Known.made, stored, owner, Known.after]

/-- **C133 (negation).** For every type for which moving from the tombstone leaves another value, as moving from a string that is not empty
leaves an empty one: an empty optional that is moved from has a value afterwards, while the destination is empty; moving on from it makes
the next destination have a value that was never stored. -/
theorem C133_moved_from_empty_violated {M : Mv T} (hr : M.V.Reflexive) (h : M.V.eq (M.left M.V.ts) M.V.ts = false) {i j n : ι}
    (hij : i ≠ j) (hnj : n ≠ j) (s : ι → Optional T) :
    (MOp.run M s [.reset j, .query j, .move i j, .query i, .query j, .move n j, .query n]).2 =
      [.none, .opt none, .none, .opt none, .opt (some (M.left M.V.ts)), .none, .opt (some (M.left M.V.ts))] := by
  have hr' : M.V.eq M.V.ts M.V.ts = true := hr
  have hji : ¬ j = i := fun e => hij e.symm
  have hjn : ¬ j = n := fun e => hnj e.symm
  simp [MOp.run, MOp.step, report, hasValue, value, put, empty, moveFrom, hr', h, hij, hnj]

/-- Strings with the tombstone "none". -/
example : ∃ M : Mv String, M.V.Reflexive ∧ M.V.eq (M.left M.V.ts) M.V.ts = false ∧ M.left M.V.ts = "" :=
  ⟨⟨⟨(· == ·), fun a b => decide (a < b), "none"⟩, fun _ => "", fun _ => ""⟩, by rfl, by rfl, rfl⟩

/-! ## Arguments that are not needed -/

/-- **C133, `value_or`.** The default is moved from exactly if the optional has no value, and the optional exactly if it has one and is an
rvalue; so whichever is not needed keeps its value. -/
theorem C133_value_or (M : Mv T) (conv : D → T) (leftD : D → D) (a : Optional T) (d : D) :
    (∀ v, view M.V a = some v → valueOrMove M conv leftD a d = (v, ⟨M.left v⟩, d) ∧ valueOrCopy M conv leftD a d = (v, a, d)) ∧
    (view M.V a = none → valueOrMove M conv leftD a d = (conv d, a, leftD d) ∧
      valueOrCopy M conv leftD a d = (conv d, a, leftD d)) := by
  constructor
  · intro v hv
    unfold view at hv
    split at hv
    · rename_i h
      simp only [Option.some.injEq] at hv
      subst hv
      simp [valueOrMove, valueOrCopy, h, value]
    · simp at hv
  · intro hv
    have := view_none_iff.mp hv
    simp [valueOrMove, valueOrCopy, this]

/-- Both cases. -/
example : view owner.V ⟨3⟩ = some 3 ∧ view owner.V ⟨0⟩ = none ∧
    valueOrMove owner (· + 1) (fun _ => 0) ⟨3⟩ 8 = (3, ⟨0⟩, 8) ∧ valueOrMove owner (· + 1) (fun _ => 0) ⟨0⟩ 8 = (9, ⟨0⟩, 0) :=
  ⟨rfl, rfl, rfl, rfl⟩

end Verif.Opt
