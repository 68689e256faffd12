import Verif.Detect.Model

/-!
# `is_complete_v` and `is_structural_v`: the property theorems (C114)

Specification: a type is complete where a definition of it comes before; it is structural if it may be the type of a template parameter.
-/

namespace Verif.Detect

/-- The right answers: at every use, whether the type was defined before.  `before` is what came before. -/
def Spec.answers (before : List Op) : List Op → List (Nat × Bool)
  | [] => []
  | .define t :: os => Spec.answers (before ++ [.define t]) os
  | .ask t :: os => (t, decide (.define t ∈ before)) :: Spec.answers (before ++ [.ask t]) os

/-- No type is defined after `is_complete_v` was used for it. -/
def NotLater (ops : List Op) : Prop := ∀ a b t, ops = a ++ .define t :: b → .ask t ∉ a

theorem run_eq (ops before : List Op) (u : Unit) (hd : ∀ t, t ∈ u.defined ↔ .define t ∈ before)
    (hk : ∀ t b, u.known.lookup t = some b → .ask t ∈ before ∧ (b = true ↔ .define t ∈ before))
    (h : NotLater (before ++ ops)) : u.run ops = Spec.answers before ops := by
  induction ops generalizing before u with
  | nil => rfl
  | cons o os ih =>
    have h' : NotLater ((before ++ [o]) ++ os) := by simpa using h
    cases o with
    | define t =>
      refine ih (before ++ [.define t]) ⟨t :: u.defined, u.known⟩ (fun x => ?_) (fun x b hb => ?_) h'
      · simp only [List.mem_cons, hd x, List.mem_append, List.not_mem_nil, or_false, Op.define.injEq]
        exact or_comm
      · obtain ⟨h1, h2⟩ := hk x b hb
        refine ⟨by simp [h1], ?_⟩
        have : x ≠ t := fun e => h before os t rfl (e ▸ h1)
        simp [h2, this]
    | ask t =>
      simp only [Unit.run, Unit.step, Spec.answers]
      cases hl : u.known.lookup t with
      | some b =>
        obtain ⟨h1, h2⟩ := hk t b hl
        simp only
        congr 1
        · congr 1
          cases b <;> simp_all
        · refine ih (before ++ [.ask t]) u (fun x => by simp [hd]) (fun x b hb => ?_) h'
          obtain ⟨h3, h4⟩ := hk x b hb
          exact ⟨by simp [h3], by simp [h4]⟩
      | none =>
        simp only
        have hi : instantiate u t = decide (.define t ∈ before) := by
          have := hd t
          by_cases hm : t ∈ u.defined
          · simp [instantiate, hm, this.mp hm]
          · simp [instantiate, hm, mt this.mpr hm]
        congr 1
        · rw [hi]
        · refine ih (before ++ [.ask t]) ⟨u.defined, _⟩ (fun x => by simp [hd]) (fun x b hb => ?_) h'
          simp only [List.lookup_cons] at hb
          split at hb
          · rename_i he
            have : x = t := by simpa using he
            subst this
            simp only [Option.some.injEq] at hb
            rw [← hb, hi]
            simp
          · obtain ⟨h3, h4⟩ := hk x b hb
            exact ⟨by simp [h3], by simp [h4]⟩

/-- **C114, completeness, partial.** In a translation unit that defines no type after asking whether it is complete, every answer is right.  Missing: types
defined later (`C114_complete_later_violated`). -/
theorem C114_complete_partial (ops : List Op) (h : NotLater ops) : Unit.init.run ops = Spec.answers [] ops :=
  run_eq ops [] Unit.init (by simp [Unit.init]) (by simp [Unit.init]) (by simpa using h)

/-- The state after some operations. -/
def after (u : Unit) (ops : List Op) : Unit := ops.foldl (fun u o => (u.step o).1) u

theorem run_append (u : Unit) (a b : List Op) : u.run (a ++ b) = u.run a ++ (after u a).run b := by
  induction a generalizing u with
  | nil => rfl
  | cons o os ih =>
    simp only [List.cons_append, Unit.run, after, List.foldl_cons]
    have : u.step o = ((u.step o).1, (u.step o).2) := rfl
    cases hs : (u.step o).2 with
    | none => rw [this, hs]; exact ih _
    | some x => rw [this, hs]; simp only [List.cons_append]; congr 1; exact ih _

theorem defined_after (ops : List Op) (u : Unit) (t : Nat) :
    t ∈ (after u ops).defined ↔ t ∈ u.defined ∨ .define t ∈ ops := by
  induction ops generalizing u with
  | nil => simp [after]
  | cons o os ih =>
    have := ih (u.step o).1
    rw [show after u (o :: os) = after (u.step o).1 os from rfl, this]
    cases o with
    | define x =>
      simp only [Unit.step, List.mem_cons, Op.define.injEq]
      constructor
      · rintro ((h | h) | h) <;> simp [h]
      · rintro (h | h | h) <;> simp [h]
    | ask x =>
      simp only [Unit.step]
      split <;> simp

theorem known_kept (ops : List Op) (u : Unit) (t : Nat) (b : Bool) (h : u.known.lookup t = some b) :
    (after u ops).known.lookup t = some b := by
  induction ops generalizing u with
  | nil => exact h
  | cons o os ih =>
    refine ih (u.step o).1 ?_
    cases o with
    | define x => exact h
    | ask x =>
      simp only [Unit.step]
      split
      · exact h
      · rename_i hx
        simp only [List.lookup_cons]
        split
        · rename_i he
          have : t = x := by simpa using he
          rw [this, hx] at h
          cases h
        · exact h

/-- **C114 fails for types that are completed later.** Once `is_complete_v` was used for a type that was not defined, it stays false: after the definition
every use gives the wrong answer. -/
theorem C114_complete_later_violated (a b c : List Op) (t : Nat) (h : .define t ∉ a) (hb : .define t ∈ b) :
    Unit.init.run (a ++ .ask t :: b ++ .ask t :: c) =
      Unit.init.run (a ++ .ask t :: b) ++ (t, false) :: (after Unit.init (a ++ .ask t :: b)).run c ∧
    .define t ∈ a ++ .ask t :: b := by
  refine ⟨?_, by simp [hb]⟩
  rw [run_append]
  congr 1
  have hk : (after Unit.init (a ++ .ask t :: b)).known.lookup t = some false := by
    have e : after Unit.init (a ++ .ask t :: b) = after ((after Unit.init a).step (.ask t)).1 b := by simp [after]
    rw [e]
    refine known_kept _ _ _ _ ?_
    have hi : instantiate (after Unit.init a) t = false := by
      have := defined_after a Unit.init t
      simp only [instantiate, List.contains_eq_mem, decide_eq_false_iff_not, this]
      simp [Unit.init, h]
    have hkn : ∀ (ops : List Op) (u : Unit), .define t ∉ ops → t ∉ u.defined → (∀ b, u.known.lookup t = some b → b = false) →
        ∀ b, (after u ops).known.lookup t = some b → b = false := by
      intro ops
      induction ops with
      | nil => exact fun u _ _ h => h
      | cons o os ih =>
        intro u hd hu hf
        refine ih (u.step o).1 (fun hm => hd (by simp [hm])) ?_ ?_
        · cases o with
          | define x =>
            simp only [Unit.step, List.mem_cons]
            rintro (rfl | hm)
            · exact hd (by simp)
            · exact hu hm
          | ask x => simp only [Unit.step]; split <;> exact hu
        · cases o with
          | define x => exact hf
          | ask x =>
            simp only [Unit.step]
            split
            · exact hf
            · simp only [List.lookup_cons]
              intro b hb
              split at hb
              · rename_i he
                have : t = x := by simpa using he
                subst this
                simp only [Option.some.injEq, instantiate, List.contains_eq_mem] at hb
                rw [← hb]
                simpa using hu
              · exact hf b hb
    simp only [Unit.step]
    cases hl : (after Unit.init a).known.lookup t with
    | some x =>
      have := hkn a Unit.init h (by simp [Unit.init]) (by simp [Unit.init]) x hl
      simp [hl, this]
    | none => simp [hi]
  show (after Unit.init (a ++ .ask t :: b)).run (.ask t :: c) = _
  simp [Unit.run, Unit.step, hk]

/-- Type 0 is asked for, defined, and asked for again; type 1 is defined first. -/
example : Unit.init.run [.define 1, .ask 0, .ask 1, .define 0, .ask 0] = [(0, false), (1, true), (0, false)] ∧
    Spec.answers [] [.define 1, .ask 0, .ask 1, .define 0, .ask 0] = [(0, false), (1, true), (0, true)] := by decide

/-! ## `is_structural_v` -/

/-- **C114, structural types, no false positives.** What is said to be structural is: a type that may be the type of a template parameter, or an lvalue reference, which all are. -/
theorem C114_structural_sound (env : Nat → Ty) (d : Nat) (r : TyRef) :
    (isStructural env d r = true → (∃ t, r = .lref t) ∨ ∃ t, r = .obj t ∧ (env t).structural = true) ∧
    ((∃ t, r = .lref t) → isStructural env d r = true) := by
  refine ⟨fun h => ?_, fun ⟨t, h⟩ => by rw [h]; rfl⟩
  cases r with
  | lref t => exact .inl ⟨t, rfl⟩
  | obj t =>
    simp only [isStructural, Bool.and_eq_true] at h
    exact .inr ⟨t, rfl, h.2⟩

/-- The only constructor of the type with so many parameters, none of them of the type itself. -/
def Only (env : Nat → Ty) (t : Nat) (c : Ctor) : Prop :=
  c ∈ (env t).ctors ∧ t ∉ c.params ∧ ∀ l r, (env t).ctors = l ++ c :: r → ∀ c' ∈ l ++ r, c'.params.length = c.params.length → t ∈ c'.params

theorem chosen_only {env : Nat → Ty} {t n : Nat} {c : Ctor} (h : chosen env t n = some c) :
    c ∈ (env t).ctors ∧ t ∉ c.params ∧ c.params.length = n := by
  have : c ∈ viable env t n := by
    unfold chosen at h
    split at h
    · simp only [Option.some.injEq] at h; simp_all
    · cases h
  simp only [viable, List.mem_filter, Bool.and_eq_true, beq_iff_eq, Bool.not_eq_true', List.contains_eq_mem,
    decide_eq_false_iff_not] at this
  exact ⟨this.1, this.2.2, this.2.1⟩

theorem only_chosen {env : Nat → Ty} {t : Nat} {c : Ctor} (h : Only env t c) : chosen env t c.params.length = some c := by
  obtain ⟨hm, ht, ho⟩ := h
  obtain ⟨l, r, e⟩ := List.append_of_mem hm
  have ho := ho l r e
  have : viable env t c.params.length = [c] := by
    unfold viable
    rw [e, List.filter_append, List.filter_cons_of_pos (by simpa using ht),
      List.filter_eq_nil_iff.mpr fun a ha => by
        have := ho a (by simp [ha]); simp only [Bool.and_eq_true, beq_iff_eq, Bool.not_eq_true', List.contains_eq_mem,
          decide_eq_false_iff_not, not_and, Classical.not_not]; exact this,
      List.filter_eq_nil_iff.mpr fun a ha => by
        have := ho a (by simp [ha]); simp only [Bool.and_eq_true, beq_iff_eq, Bool.not_eq_true', List.contains_eq_mem,
          decide_eq_false_iff_not, not_and, Classical.not_not]; exact this]
    rfl
  simp [chosen, this]

theorem chosen_is_only {env : Nat → Ty} {t n : Nat} {c : Ctor} (h : chosen env t n = some c) : Only env t c := by
  obtain ⟨h1, h2, h3⟩ := chosen_only h
  refine ⟨h1, h2, fun l r e c' hc' hl => ?_⟩
  have hv : viable env t n = [c] := by
    unfold chosen at h
    split at h
    · simp only [Option.some.injEq] at h; simp_all
    · cases h
  unfold viable at hv
  rw [e, List.filter_append, List.filter_cons_of_pos (by simp [h2, h3])] at hv
  have hlen := congrArg List.length hv
  simp only [List.length_append, List.length_cons, List.length_nil] at hlen
  have e1 := List.eq_nil_of_length_eq_zero (show ((l.filter fun c => c.params.length == n && !c.params.contains t)).length = 0 by omega)
  have e2 := List.eq_nil_of_length_eq_zero (show ((r.filter fun c => c.params.length == n && !c.params.contains t)).length = 0 by omega)
  rw [List.filter_eq_nil_iff] at e1 e2
  have : ¬ (c'.params.length == n && !c'.params.contains t) = true := by
    rcases List.mem_append.mp hc' with h | h
    · exact e1 c' h
    · exact e2 c' h
  simp only [hl, h3, beq_self_eq_true, Bool.true_and, Bool.not_eq_true', List.contains_eq_mem, decide_eq_false_iff_not,
    Classical.not_not] at this
  exact this

/-- The constructor with the fewest parameters among those that are alone with their number of parameters. -/
def Shortest (env : Nat → Ty) (t : Nat) (c : Ctor) : Prop :=
  Only env t c ∧ ∀ c', Only env t c' → c.params.length ≤ c'.params.length

theorem pick_eq {env : Nat → Ty} {t : Nat} {c : Ctor} (h : Shortest env t c) (hn : c.params.length ≤ 10) :
    pick env t 10 = some c := by
  have hc := only_chosen h.1
  have hs : ∀ m, m < c.params.length → chosen env t m = none := by
    intro m hm
    cases he : chosen env t m with
    | none => rfl
    | some c' =>
      have h1 := h.2 c' (chosen_is_only he)
      have h2 := (chosen_only he).2.2
      omega
  have : ∀ k, k ≤ 10 → 10 - k ≤ c.params.length → pick env t k = some c := by
    intro k
    induction k with
    | zero =>
      intro _ h1
      rw [pick, show 10 = c.params.length by omega, hc]
    | succ k ih =>
      intro h1 h2
      rw [pick]
      by_cases he : 10 - (k + 1) = c.params.length
      · rw [he, hc]
      · rw [hs _ (by omega)]
        exact ih (by omega) (by omega)
  exact this 10 (Nat.le_refl _) (by omega)

theorem pick_shortest {env : Nat → Ty} {t : Nat} {c : Ctor} (h : pick env t 10 = some c) :
    Shortest env t c ∧ c.params.length ≤ 10 := by
  have : ∀ k, k ≤ 10 → (∀ m, m < 10 - k → chosen env t m = none) → pick env t k = some c →
      ∃ n, n ≤ 10 ∧ chosen env t n = some c ∧ ∀ m, m < n → chosen env t m = none := by
    intro k
    induction k with
    | zero => exact fun _ hm hp => ⟨10, Nat.le_refl _, hp, hm⟩
    | succ k ih =>
      intro hk hm hp
      rw [pick] at hp
      cases he : chosen env t (10 - (k + 1)) with
      | some c' =>
        rw [he] at hp
        exact ⟨10 - (k + 1), by omega, by rw [he]; exact hp, hm⟩
      | none =>
        rw [he] at hp
        refine ih (by omega) (fun m hm' => ?_) hp
        by_cases hme : m = 10 - (k + 1)
        · rw [hme, he]
        · exact hm m (by omega)
  obtain ⟨n, hn, hc, hm⟩ := this 10 (Nat.le_refl _) (fun m hm => by omega) h
  have hl := (chosen_only hc).2.2
  refine ⟨⟨chosen_is_only hc, fun c' hc' => ?_⟩, by omega⟩
  apply Classical.byContradiction
  intro hlt
  have := only_chosen hc'
  rw [hm _ (by omega)] at this
  cases this

/-- A type that can be made from nothing in a constant expression: by the shortest of the constructors that are alone with their number of
parameters, of which there are at most ten, from types that can be made so. -/
inductive Makes (env : Nat → Ty) : Nat → Prop where
  | mk (t : Nat) (c : Ctor) : Shortest env t c → c.params.length ≤ 10 → c.cx = true → (∀ p ∈ c.params, Makes env p) → Makes env t

theorem tryConstruct_mono (env : Nat → Ty) (d e t : Nat) (h : tryConstruct env d t = true) (hde : d ≤ e) : tryConstruct env e t = true := by
  induction d generalizing e t with
  | zero => simp [tryConstruct] at h
  | succ d ih =>
    obtain ⟨e, rfl⟩ : ∃ e', e = e' + 1 := ⟨e - 1, by omega⟩
    rw [tryConstruct] at h ⊢
    split at h
    · cases h
    · rename_i c hc
      simp only [Bool.and_eq_true, List.all_eq_true] at h ⊢
      exact ⟨h.1, fun p hp => ih e p (h.2 p hp) (by omega)⟩

/-- **C114, structural types, exactly.** With enough depth for the compiler, `is_structural_v` is true of a type exactly if the type is structural and can be made
from nothing. -/
theorem C114_structural_iff (env : Nat → Ty) (t : Nat) :
    (∃ d, ∀ e, d ≤ e → isStructural env e (.obj t) = true) ↔ (env t).structural = true ∧ Makes env t := by
  have h1 : ∀ d t, tryConstruct env d t = true → Makes env t := by
    intro d
    induction d with
    | zero => intro t h; simp [tryConstruct] at h
    | succ d ih =>
      intro t h
      rw [tryConstruct] at h
      split at h
      · cases h
      · rename_i c hc
        simp only [Bool.and_eq_true, List.all_eq_true] at h
        obtain ⟨hs, hl⟩ := pick_shortest hc
        exact .mk t c hs hl h.1 fun p hp => ih p (h.2 p hp)
  have h2 : ∀ t, Makes env t → ∃ d, tryConstruct env d t = true := by
    intro t h
    induction h with
    | mk t c hs hl hcx _ ih =>
      have : ∀ ps : List Nat, (∀ p ∈ ps, ∃ d, tryConstruct env d p = true) → ∃ d, ∀ p ∈ ps, tryConstruct env d p = true := by
        intro ps
        induction ps with
        | nil => exact fun _ => ⟨0, by simp⟩
        | cons p ps ihp =>
          intro h
          obtain ⟨d1, hd1⟩ := h p (by simp)
          obtain ⟨d2, hd2⟩ := ihp fun q hq => h q (by simp [hq])
          refine ⟨max d1 d2, fun q hq => ?_⟩
          rcases List.mem_cons.mp hq with rfl | hq
          · exact tryConstruct_mono env d1 _ _ hd1 (Nat.le_max_left _ _)
          · exact tryConstruct_mono env d2 _ _ (hd2 q hq) (Nat.le_max_right _ _)
      obtain ⟨d, hd⟩ := this c.params ih
      refine ⟨d + 1, ?_⟩
      simp only [tryConstruct, pick_eq hs hl, hcx, Bool.true_and, List.all_eq_true]
      exact hd
  constructor
  · rintro ⟨d, h⟩
    have := h d (Nat.le_refl _)
    simp only [isStructural, Bool.and_eq_true] at this
    exact ⟨this.2, h1 d t this.1⟩
  · rintro ⟨hs, hm⟩
    obtain ⟨d, hd⟩ := h2 t hm
    exact ⟨d, fun e he => by simp [isStructural, hs, tryConstruct_mono env d e t hd he]⟩

/-- **C114, structural types, partial.** A structural type with one constructor without parameters, which is `constexpr`, is found to be structural at every depth.  Missing:
types without one (`C114_overloaded_violated`, `C114_many_parameters_violated`, `C114_mutual_violated`), or where it is not
`constexpr` (`C114_not_constexpr_violated`). -/
theorem C114_default_constructible_partial (env : Nat → Ty) (t d : Nat) (l r : List Ctor) (h : (env t).ctors = l ++ ⟨[], true⟩ :: r)
    (ho : ∀ c ∈ l ++ r, c.params ≠ []) : isStructural env (d + 1) (.obj t) = (env t).structural := by
  have hv : viable env t 0 = [⟨[], true⟩] := by
    unfold viable
    rw [h, List.filter_append, List.filter_cons_of_pos (by simp),
      List.filter_eq_nil_iff.mpr fun a ha => by have := ho a (by simp [ha]); simp [this],
      List.filter_eq_nil_iff.mpr fun a ha => by have := ho a (by simp [ha]); simp [this]]
    rfl
  have hp : pick env t 10 = some ⟨[], true⟩ := by
    rw [pick, show (10 - (9 + 1) : Nat) = 0 from rfl, chosen, hv]
  simp [isStructural, tryConstruct, hp]

/-- Without a constructor that is alone with its number of parameters, up to ten, the answer is no. -/
theorem none_chosen (env : Nat → Ty) (t d : Nat) (h : ∀ c, Only env t c → 10 < c.params.length) :
    isStructural env d (.obj t) = false := by
  cases d with
  | zero => simp [isStructural, tryConstruct]
  | succ d =>
    cases hp : pick env t 10 with
    | none => simp [isStructural, tryConstruct, hp]
    | some c =>
      obtain ⟨hs, hl⟩ := pick_shortest hp
      have := h c hs.1
      omega

/-- **C114 fails for overloaded constructors.** A type whose constructors are two with the same number of parameters is never found to be structural,
whatever it is: the arguments convert to anything, so the call is ambiguous. -/
theorem C114_overloaded_violated (env : Nat → Ty) (t d : Nat) (c c' : Ctor) (h : (env t).ctors = [c, c'])
    (hn : c.params.length = c'.params.length) (ht : t ∉ c.params) (ht' : t ∉ c'.params) :
    isStructural env d (.obj t) = false := by
  refine none_chosen env t d fun x hx => ?_
  obtain ⟨hm, _, ho⟩ := hx
  rw [h] at hm ho
  simp only [List.mem_cons, List.not_mem_nil, or_false] at hm
  rcases hm with rfl | rfl
  · exact absurd (ho [] [c'] rfl c' (by simp) hn.symm) ht'
  · exact absurd (ho [c] [] rfl c (by simp) hn) ht

/-- **C114 fails for many parameters.** A type all of whose constructors take more than ten parameters is never found to be structural. -/
theorem C114_many_parameters_violated (env : Nat → Ty) (t d : Nat) (h : ∀ c ∈ (env t).ctors, 10 < c.params.length) :
    isStructural env d (.obj t) = false :=
  none_chosen env t d fun c hc => h c hc.1

/-- **C114 fails where the first constructor found is not `constexpr`.** Other constructors that are do not help. -/
theorem C114_not_constexpr_violated (env : Nat → Ty) (t d : Nat) (c : Ctor) (h : Shortest env t c) (hc : c.cx = false) :
    isStructural env d (.obj t) = false := by
  cases d with
  | zero => simp [isStructural, tryConstruct]
  | succ d =>
    cases hp : pick env t 10 with
    | none => simp [isStructural, tryConstruct, hp]
    | some c' =>
      by_cases hl : c.params.length ≤ 10
      · rw [pick_eq h hl] at hp
        simp only [Option.some.injEq] at hp
        subst hp
        simp [isStructural, tryConstruct, pick_eq h hl, hc]
      · obtain ⟨hs, hl'⟩ := pick_shortest hp
        have := h.2 c' hs.1
        omega

/-- **C114 fails for types made from each other.** -/
theorem C114_mutual_violated (env : Nat → Ty) (t u d : Nat) (c c' : Ctor) (h : Shortest env t c) (h' : Shortest env u c')
    (hu : u ∈ c.params) (ht : t ∈ c'.params) : isStructural env d (.obj t) = false := by
  have hno : ∀ x, Makes env x → x ≠ t ∧ x ≠ u := by
    intro x hx
    induction hx with
    | mk x k hs hl _ _ ih =>
      constructor
      · rintro rfl
        have : k = c := by
          have e1 := pick_eq hs hl
          have e2 := pick_eq h (by have := h.2 k hs.1; omega)
          rw [e1] at e2
          exact Option.some.inj e2
        exact (ih u (this ▸ hu)).2 rfl
      · rintro rfl
        have : k = c' := by
          have e1 := pick_eq hs hl
          have e2 := pick_eq h' (by have := h'.2 k hs.1; omega)
          rw [e1] at e2
          exact Option.some.inj e2
        exact (ih t (this ▸ ht)).1 rfl
  cases hi : isStructural env d (.obj t) with
  | false => rfl
  | true =>
    have : Makes env t ∧ (env t).structural = true := by
      have hd : ∀ e, d ≤ e → isStructural env e (.obj t) = true := fun e he => by
        simp only [isStructural, Bool.and_eq_true] at hi ⊢
        exact ⟨tryConstruct_mono env d e t hi.1 he, hi.2⟩
      exact ((C114_structural_iff env t).mp ⟨d, hd⟩).symm
    exact absurd rfl (hno t this.1).1

/-- `int` (0), a structural class with the constructor `S(int)` (1), one with `P(int)` and `P(S)` (2), one with `Q(R)` (3) and `R(Q)` (4). -/
def world : Nat → Ty
  | 0 => ⟨true, [⟨[], true⟩]⟩
  | 1 => ⟨true, [⟨[1], true⟩, ⟨[0], true⟩]⟩
  | 2 => ⟨true, [⟨[0], true⟩, ⟨[1], true⟩]⟩
  | 3 => ⟨true, [⟨[4], true⟩]⟩
  | 4 => ⟨true, [⟨[3], true⟩]⟩
  | _ => ⟨false, [⟨[], true⟩]⟩

/-- All are structural but the last, and only the first two are found. -/
example : (List.range 6).map (fun t => ((world t).structural, isStructural world 8 (.obj t))) =
    [(true, true), (true, true), (true, false), (true, false), (true, false), (false, false)] := by decide

end Verif.Detect
