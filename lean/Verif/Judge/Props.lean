import Verif.Judge.Spec
import Verif.Unwind.Props
import Verif.CxSet.Props
import Verif.CxMap.Props

/-!
# C140, sets and maps: comparisons that throw
-/

namespace Verif.Judge

open Verif.Unwind Verif.Buf

variable {E W R Q B α κ ν : Type}

/-! ## Composition -/

theorem Sim.andThen {res : Res E (B × W) R} {pure : Outcome (B × R)} {left : B → Prop} {src : W → E → Prop}
    {k : B × W → R → Res E (B × W) Q} {kp : B → R → Outcome (B × Q)} (h : Sim res pure left src)
    (hk : ∀ b w r, pure = .ok (b, r) → Sim (k (b, w) r) (kp b r) left src) :
    Sim (res.andThen k) (pure >>= fun x => kp x.1 x.2) left src := by
  cases res with
  | ok s r =>
    have e : pure = .ok (s.1, r) := h
    have := hk s.1 s.2 r e
    rw [e]
    exact this
  | threw s e => exact h
  | ub =>
    intro x hx
    obtain ⟨y, hy, _⟩ := Outcome.bind_eq_ok.mp hx
    exact h y hy
  | terminated => exact h

theorem Sim.mono {res : Res E (B × W) R} {pure : Outcome (B × R)} {left left' : B → Prop} {src src' : W → E → Prop}
    (h : Sim res pure left src) (hl : ∀ b, left b → left' b) (hs : ∀ w e, src w e → src' w e) : Sim res pure left' src' := by
  cases res with
  | threw s e => exact ⟨hl _ h.1, hs _ _ h.2⟩
  | _ => exact h

theorem sim_ok {left : B → Prop} {src : W → E → Prop} (b : B) (w : W) (r : R) : Sim (.ok (b, w) r) (.ok (b, r)) left src := rfl

theorem sim_need {left : B → Prop} {src : W → E → Prop} {o : Outcome Q} {k : Q → Res E (B × W) R} {kp : Q → Outcome (B × R)}
    (h : ∀ q, o = .ok q → Sim (k q) (kp q) left src) : Sim (need o k) (o >>= kp) left src := by
  cases o with
  | ok q => exact h q rfl
  | ub => intro x hx; cases hx
  | panic => intro x hx; cases hx

/-! ## Loops -/

theorem scan_sim {p : Fn E W α Bool} {t : α → Bool} (hT : ∀ x w w' c, p x w = (w', .ok c) → c = t x) (b : B) (st : List α) :
    ∀ (rem i : Nat) (w : W), Sim (beside b (scan p st i rem w)) (Buf.scan t st i rem >>= fun r => .ok (b, r)) (fun b' => b' = b)
      (fun w' e => ∃ x w, p x w = (w', .error e)) := by
  intro rem
  induction rem with
  | zero => intro i w; rfl
  | succ rem ih =>
    intro i w
    unfold scan Buf.scan
    cases hx : arrGet st i with
    | ub => intro x hx; cases hx
    | panic => intro x hx; cases hx
    | ok x =>
      simp only [need, Outcome.ok_bind]
      rw [call_eq]
      cases hp : p x w with
      | mk w1 c =>
        cases c with
        | error e => exact ⟨rfl, x, w, hp⟩
        | ok c =>
          have hc := hT _ _ _ _ hp
          subst hc
          simp only [of_ok, andThen_ok]
          cases t x with
          | true => rfl
          | false => exact ih (i + 1) w1

theorem find_sim [BEq α] {eq : Fn E W (α × α) Bool} (hT : Truthful eq) {A : Type} (f : A → α) (k : α) (s : Buf A × W) :
    Sim (find (fun x => eq (f x, k)) s) (Buf.find (fun x => f x == k) s.1 >>= fun r => .ok (s.1, r)) (fun b => b = s.1) (From eq) := by
  refine (scan_sim (p := fun x => eq (f x, k)) (t := fun x => f x == k) (fun x w w' c h => hT _ _ _ _ _ h) s.1 s.1.storage s.1.size 0
    s.2).mono (fun _ h => h) ?_
  rintro w' e ⟨x, w, h⟩
  exact ⟨_, _, _, h⟩

theorem bind_ok_eq {A : Type} {o : Outcome A} {f : A → R} {r : R} (h : (o >>= fun a => .ok (f a)) = .ok r) : ∃ a, o = .ok a ∧ f a = r := by
  obtain ⟨a, ha, h⟩ := Outcome.bind_eq_ok.mp h
  exact ⟨a, ha, Outcome.ok.inj h⟩

theorem bind_assoc' {A C D : Type} (o : Outcome A) (f : A → Outcome C) (g : C → Outcome D) :
    ((o >>= f) >>= g) = (o >>= fun a => f a >>= g) := by cases o <;> rfl

/-! ## cx_set -/

theorem setContains_sim [BEq α] {eq : Fn E W (α × α) Bool} (hT : Truthful eq) (k : α) (s : Buf α × W) :
    Sim (setContains eq k s) (CxSet.contains s.1 k >>= fun c => .ok (s.1, c)) (fun b => b = s.1) (From eq) := by
  have := (find_sim hT (fun x => x) k s).andThen (k := fun s r => .ok s r.isSome) (kp := fun b r => .ok (b, r.isSome))
    (fun b w r _ => sim_ok b w _)
  unfold CxSet.contains
  simp only [bind_assoc', Outcome.ok_bind] at this ⊢
  exact this

theorem setInsert_sim [BEq α] {eq : Fn E W (α × α) Bool} (hT : Truthful eq) (k : α) (s : Buf α × W) :
    Sim (setInsert eq k s) (CxSet.insert s.1 k) (fun b => b = s.1) (From eq) := by
  have := (setContains_sim hT k s).andThen
    (k := fun s c => if c then .ok s false else need (append s.1 k) fun b => .ok (b, s.2) true)
    (kp := fun b c => if c then .ok (b, false) else append b k >>= fun b => .ok (b, true)) (by
      intro b w c hb
      cases c with
      | true => exact sim_ok b w _
      | false => exact sim_need fun q _ => sim_ok q w _)
  unfold setInsert CxSet.insert
  refine cast (congrArg (fun p => Sim _ p _ _) ?_) this
  cases CxSet.contains s.1 k with
  | ok c => cases c <;> rfl
  | _ => rfl

theorem eraseAt_sim {left : Buf α → Prop} {src : W → E → Prop} (b : Buf α) (w : W) (r : Option Nat) :
    Sim (eraseAt (b, w) r) (match r with
      | some i => do
        let n := szDec b.size
        let x ← arrGet b.storage n
        let st ← arrSet b.storage i x
        return (⟨st, n⟩, 1)
      | none => return (b, 0)) left src := by
  cases r with
  | none => rfl
  | some i => exact sim_need fun x _ => sim_need fun st _ => rfl

theorem erase_sim [BEq α] {A : Type} {eq : Fn E W (α × α) Bool} (hT : Truthful eq) (f : A → α) (k : α) (s : Buf A × W) :
    Sim ((find (fun x => eq (f x, k)) s).andThen eraseAt) (Buf.eraseIf (fun x => f x == k) s.1) (fun b => b = s.1) (From eq) := by
  have := (find_sim hT f k s).andThen (k := eraseAt) (fun b w r _ => eraseAt_sim b w r)
  unfold Buf.eraseIf
  simp only [bind_assoc', Outcome.ok_bind] at this
  exact this

theorem setMerge_sim [BEq α] {eq : Fn E W (α × α) Bool} (hT : Truthful eq) : ∀ (xs : List α) (s : Buf α × W),
    Sim (setMerge eq xs s) (CxSet.merge s.1 xs >>= fun b => .ok (b, ()))
      (fun b => ∃ pre post, xs = pre ++ post ∧ CxSet.merge s.1 pre = .ok b) (From eq) := by
  intro xs
  induction xs with
  | nil => intro s; rfl
  | cons x xs ih =>
    intro s
    have := ((setInsert_sim hT x s).mono (left' := fun b => ∃ pre post, x :: xs = pre ++ post ∧ CxSet.merge s.1 pre = .ok b)
      (fun b hb => ⟨[], x :: xs, rfl, by rw [hb]; rfl⟩) (fun _ _ h => h)).andThen (k := fun s _ => setMerge eq xs s)
      (kp := fun b _ => CxSet.merge b xs >>= fun b => .ok (b, ())) (fun b w r hb => (ih (b, w)).mono (by
        rintro b' ⟨pre, post, rfl, h⟩
        refine ⟨x :: pre, post, rfl, ?_⟩
        unfold CxSet.merge
        rw [hb]
        exact h) (fun _ _ h => h))
    refine cast (congrArg (fun p => Sim _ p _ _) ?_) this
    simp only [CxSet.merge, bind_assoc']

/-- **C140, cx_set.** Each operation does what it does with a comparison that returns, or throws what a comparison has thrown and has then
changed nothing; `merge` has inserted a first part of the elements. -/
theorem C140_set_step [BEq α] {eq : Fn E W (α × α) Bool} (hT : Truthful eq) (o : CxSet.Op α) (s : Buf α × W) :
    Sim (setStep eq o s) (CxSet.step s.1 o)
      (fun b => b = s.1 ∨ ∃ o' q, SetPart o o' q ∧ CxSet.step s.1 o' = .ok (b, q)) (From eq) := by
  cases o with
  | insert k =>
    refine Sim.mono (left := fun b => b = s.1) ?_ (fun b h => .inl h) (fun _ _ h => h)
    exact (setInsert_sim hT k s).andThen (k := fun s r => .ok s (CxSet.Out.bool r)) (kp := fun b r => .ok (b, .bool r))
      fun b w r _ => sim_ok b w _
  | erase k =>
    refine Sim.mono (left := fun b => b = s.1) ?_ (fun b h => .inl h) (fun _ _ h => h)
    exact (erase_sim hT (fun x => x) k s).andThen (k := fun s r => .ok s (CxSet.Out.nat r)) (kp := fun b r => .ok (b, .nat r))
      fun b w r _ => sim_ok b w _
  | merge xs =>
    have := ((setMerge_sim hT xs s).mono (left' := fun b => b = s.1 ∨ ∃ o' q, SetPart (.merge xs) o' q ∧ CxSet.step s.1 o' = .ok (b, q)) (by
      rintro b ⟨pre, post, rfl, h⟩
      refine .inr ⟨_, _, .merge pre post, ?_⟩
      simp only [CxSet.step, h]; rfl) (fun _ _ h => h)).andThen (k := fun s _ => .ok s (CxSet.Out.unit : CxSet.Out α))
      (kp := fun b _ => .ok (b, .unit)) fun b w r _ => sim_ok b w _
    simp only [bind_assoc'] at this
    exact this
  | popBack => exact sim_need fun q _ => rfl
  | clear => rfl
  | contains k =>
    refine Sim.mono (left := fun b => b = s.1) ?_ (fun b h => .inl h) (fun _ _ h => h)
    have := (setContains_sim hT k s).andThen (k := fun s r => .ok s (CxSet.Out.bool r : CxSet.Out α)) (kp := fun b r => .ok (b, .bool r))
      fun b w r _ => sim_ok b w _
    simp only [bind_assoc'] at this
    exact this
  | size => rfl
  | empty => rfl
  | iterate => exact sim_need fun q _ => rfl

/-! ## Histories -/

/-- The operations of a history in turn. -/
def runWith {O Q : Type} (step : B → O → Outcome (B × Q)) : B → List O → Outcome (B × List Q)
  | b, [] => .ok (b, [])
  | b, o :: os => do
    let (b1, r) ← step b o
    let (b2, rs) ← runWith step b1 os
    return (b2, r :: rs)

/-- If the steps agree, so do the histories. -/
theorem history_sim {O Q : Type} {stepT : O → B × W → Res E (B × W) Q} {step : B → O → Outcome (B × Q)} {part : O → O → Q → Prop}
    {src : W → E → Prop}
    (hs : ∀ o s, Sim (stepT o s) (step s.1 o) (fun b => b = s.1 ∨ ∃ o' q, part o o' q ∧ step s.1 o' = .ok (b, q)) src) :
    ∀ (os : List O) (s : B × W), match history stepT os s with
      | .ok s' rs => ∃ es qs, Took part os rs es qs ∧ runWith step s.1 es = .ok (s'.1, qs)
      | .ub => ∃ pre o post rs es qs b, os = pre ++ o :: post ∧ Took part pre rs es qs ∧ runWith step s.1 es = .ok (b, qs) ∧
          ∀ x, step b o ≠ .ok x
      | _ => False := by
  intro os
  induction os with
  | nil => intro s; exact ⟨[], [], .nil, rfl⟩
  | cons o os ih =>
    intro s
    have h := hs o s
    unfold history
    cases hst : stepT o s with
    | terminated => rw [hst] at h; exact h
    | ub =>
      rw [hst] at h
      exact ⟨[], o, os, [], [], [], s.1, rfl, .nil, rfl, h⟩
    | ok s1 r =>
      rw [hst] at h
      have e : step s.1 o = .ok (s1.1, r) := h
      have hi := ih s1
      simp only
      cases hh : history stepT os s1 with
      | ok s2 rs =>
        rw [hh] at hi
        obtain ⟨es, qs, h1, h2⟩ := hi
        refine ⟨o :: es, r :: qs, .returned h1, ?_⟩
        unfold runWith
        rw [e, Outcome.ok_bind]
        simp only
        rw [h2]; rfl
      | threw s2 x => rw [hh] at hi; exact hi
      | terminated => rw [hh] at hi; exact hi
      | ub =>
        rw [hh] at hi
        obtain ⟨pre, o1, post, rs, es, qs, b, rfl, h1, h2, h3⟩ := hi
        refine ⟨o :: pre, o1, post, some r :: rs, o :: es, r :: qs, b, rfl, .returned h1, ?_, h3⟩
        unfold runWith
        rw [e, Outcome.ok_bind]
        simp only
        rw [h2]; rfl
    | threw s1 x =>
      rw [hst] at h
      have hi := ih s1
      simp only
      rcases h.1 with hb | ⟨o', q, hp, e⟩
      · rw [hb] at hi
        cases hh : history stepT os s1 with
        | ok s2 rs =>
          rw [hh] at hi
          obtain ⟨es, qs, h1, h2⟩ := hi
          exact ⟨es, qs, .threw h1, h2⟩
        | threw s2 x => rw [hh] at hi; exact hi
        | terminated => rw [hh] at hi; exact hi
        | ub =>
          rw [hh] at hi
          obtain ⟨pre, o1, post, rs, es, qs, b, rfl, h1, h2, h3⟩ := hi
          exact ⟨o :: pre, o1, post, none :: rs, es, qs, b, rfl, .threw h1, h2, h3⟩
      · cases hh : history stepT os s1 with
        | ok s2 rs =>
          rw [hh] at hi
          obtain ⟨es, qs, h1, h2⟩ := hi
          refine ⟨o' :: es, q :: qs, .partly hp h1, ?_⟩
          unfold runWith
          rw [e, Outcome.ok_bind]
          simp only
          rw [h2]; rfl
        | threw s2 x => rw [hh] at hi; exact hi
        | terminated => rw [hh] at hi; exact hi
        | ub =>
          rw [hh] at hi
          obtain ⟨pre, o1, post, rs, es, qs, b, rfl, h1, h2, h3⟩ := hi
          refine ⟨o :: pre, o1, post, none :: rs, o' :: es, q :: qs, b, rfl, .partly hp h1, ?_, h3⟩
          unfold runWith
          rw [e, Outcome.ok_bind]
          simp only
          rw [h2]; rfl

theorem set_run [BEq α] (b : Buf α) (os : List (CxSet.Op α)) : runWith CxSet.step b os = CxSet.run b os := by
  induction os generalizing b with
  | nil => rfl
  | cons o os ih => unfold runWith CxSet.run; simp only [ih]

theorem map_run [BEq κ] (N : Nat) (b : Buf (κ × ν)) (os : List (CxMap.Op κ ν)) : runWith (CxMap.step N) b os = CxMap.run N b os := by
  induction os generalizing b with
  | nil => rfl
  | cons o os ih => unfold runWith CxMap.run; simp only [ih]

/-- **C140, histories of sets.** A history whose exceptions are caught has the effect and the results of the operations that
returned, and of first parts of merges. -/
theorem C140_set_history [BEq α] {eq : Fn E W (α × α) Bool} (hT : Truthful eq) (os : List (CxSet.Op α)) (s s' : Buf α × W)
    (rs : List (Option (CxSet.Out α))) (h : history (setStep eq) os s = .ok s' rs) :
    ∃ es qs, Took SetPart os rs es qs ∧ CxSet.run s.1 es = .ok (s'.1, qs) := by
  have := history_sim (C140_set_step hT) os s
  rw [h] at this
  simp only [set_run] at this
  exact this

/-! ## cx_map -/

theorem mapPlace_sim [BEq κ] {eq : Fn E W (κ × κ) Bool} (hT : Truthful eq) (k : κ) (s : Buf (κ × ν) × W) :
    Sim (mapPlace eq k s) (Buf.find (fun e => e.1 == k) s.1 >>= fun r => match r with
      | some i => .ok (s.1, i)
      | none => .ub) (fun b => b = s.1) (From eq) := by
  have := (find_sim hT Prod.fst k s).andThen (k := fun s r => match r with | some i => .ok s i | none => .ub)
    (kp := fun b r => match r with | some i => .ok (b, i) | none => .ub) (by
      intro b w r _
      cases r with
      | some i => exact sim_ok b w i
      | none => intro x hx; cases hx)
  simp only [bind_assoc', Outcome.ok_bind] at this
  exact this

/-- **C140, cx_map.** Each operation does what it does with a comparison that returns, or throws what a comparison has thrown and has then
changed nothing. -/
theorem C140_map_step [BEq κ] (N : Nat) {eq : Fn E W (κ × κ) Bool} (hT : Truthful eq) (o : CxMap.Op κ ν) (s : Buf (κ × ν) × W) :
    Sim (mapStep N eq o s) (CxMap.step N s.1 o) (fun b => b = s.1) (From eq) := by
  cases o with
  | put k v =>
    have := (find_sim hT Prod.fst k s).andThen (k := fun s r => (match r with
        | some i => (mapWrite s i v).andThen fun s _ => .ok s false
        | none => need (append s.1 (k, v)) fun b => .ok (b, s.2) true : Res E (Buf (κ × ν) × W) Bool))
      (kp := fun b r => match r with
        | some i => (arrGet b.storage i >>= fun e => arrSet b.storage i (e.1, v) >>= fun st => .ok (⟨st, b.size⟩, false))
        | none => append b (k, v) >>= fun b => .ok (b, true)) (by
        intro b w r _
        cases r with
        | none => exact sim_need fun q _ => rfl
        | some i =>
          show Sim ((mapWrite (b, w) i v).andThen fun s _ => .ok s false) _ _ _
          have h : Sim (mapWrite (E := E) (b, w) i v) (arrGet b.storage i >>= fun e => arrSet b.storage i (e.1, v) >>= fun st =>
              .ok (⟨st, b.size⟩, ())) (fun b => b = s.1) (From eq) := sim_need fun e _ => sim_need fun st _ => rfl
          have := h.andThen (k := fun s _ => .ok s false) (kp := fun b _ => .ok (b, false)) fun b w _ _ => sim_ok b w _
          simp only [bind_assoc', Outcome.ok_bind] at this
          exact this)
    have := this.andThen (k := fun s r => .ok s (CxMap.Out.bool r : CxMap.Out κ ν)) (kp := fun b r => .ok (b, .bool r))
      fun b w r _ => sim_ok b w _
    simp only [bind_assoc', Outcome.ok_bind] at this
    refine cast (congrArg (fun p => Sim _ p _ _) ?_) this
    simp only [CxMap.step, CxMap.insertOrAssign, bind_assoc']
    congr 1
  | erase k =>
    exact (erase_sim hT Prod.fst k s).andThen (k := fun s r => .ok s (CxMap.Out.nat r)) (kp := fun b r => .ok (b, .nat r))
      fun b w r _ => sim_ok b w _
  | popBack => exact sim_need fun q _ => rfl
  | clear => rfl
  | contains k =>
    have := ((find_sim hT Prod.fst k s).andThen (k := fun s r => .ok s r.isSome) (kp := fun b r => .ok (b, r.isSome))
      (fun b w r _ => sim_ok b w _)).andThen (k := fun s r => .ok s (CxMap.Out.bool (κ := κ) (ν := ν) r)) (kp := fun b r => .ok (b, .bool r))
      fun b w r _ => sim_ok b w _
    simp only [bind_assoc', Outcome.ok_bind] at this
    refine cast (congrArg (fun p => Sim _ p _ _) ?_) this
    simp only [CxMap.step, CxMap.contains, bind_assoc']
    rfl
  | get k =>
    have := (mapPlace_sim hT k s).andThen (k := fun s i => (mapRead s i).andThen fun s v => .ok s (.val v))
      (kp := fun b i => arrGet b.storage i >>= fun e => .ok (b, (.val e.2 : CxMap.Out κ ν))) (by
        intro b w i _
        show Sim ((need (arrGet b.storage i) fun e => .ok (b, w) e.2).andThen _) _ _ _
        cases arrGet b.storage i with
        | ok e => rfl
        | ub => intro x hx; cases hx
        | panic => intro x hx; cases hx)
    refine cast (congrArg (fun p => Sim _ p _ _) ?_) this
    simp only [CxMap.step, CxMap.get, bind_assoc']
    congr 1
    funext r
    cases r with
    | none => rfl
    | some i => simp only [bind_assoc', Outcome.ok_bind]; rfl
  | assignGet k v =>
    have := (mapPlace_sim hT k s).andThen (k := fun s i => (mapWrite s i v).andThen fun s _ => .ok s .unit)
      (kp := fun b i => arrGet b.storage i >>= fun e => arrSet b.storage i (e.1, v) >>= fun st =>
        .ok (⟨st, b.size⟩, (.unit : CxMap.Out κ ν))) (by
        intro b w i _
        simp only [mapWrite]
        cases arrGet b.storage i with
        | ok e =>
          simp only [need, Outcome.ok_bind]
          cases arrSet b.storage i (e.1, v) with
          | ok st => rfl
          | ub => intro x hx; cases hx
          | panic => intro x hx; cases hx
        | ub => intro x hx; cases hx
        | panic => intro x hx; cases hx)
    refine cast (congrArg (fun p => Sim _ p _ _) ?_) this
    simp only [CxMap.step, CxMap.assignGet, bind_assoc']
    congr 1
    funext r
    cases r with
    | none => rfl
    | some i => simp only [bind_assoc', Outcome.ok_bind]; rfl
  | size => rfl
  | empty => rfl
  | full => rfl
  | iterate => exact sim_need fun q _ => rfl

/-- **C140, histories of maps.** A history whose exceptions are caught has the effect and the results of the operations that returned. -/
theorem C140_map_history [BEq κ] (N : Nat) {eq : Fn E W (κ × κ) Bool} (hT : Truthful eq) (os : List (CxMap.Op κ ν)) (s s' : Buf (κ × ν) × W)
    (rs : List (Option (CxMap.Out κ ν))) (h : history (mapStep N eq) os s = .ok s' rs) :
    ∃ es qs, Took MapPart os rs es qs ∧ CxMap.run N s.1 es = .ok (s'.1, qs) := by
  have := history_sim (part := MapPart) (step := CxMap.step N)
    (fun o s => (C140_map_step N hT o s).mono (fun b h => .inl h) (fun _ _ h => h)) os s
  rw [h] at this
  simp only [map_run] at this
  exact this

/-- **C140.** Histories of sets and of maps are undefined only at an operation that would be so with comparisons that return. -/
theorem C140_set_undefined [BEq α] {eq : Fn E W (α × α) Bool} (hT : Truthful eq) (os : List (CxSet.Op α)) (s : Buf α × W)
    (h : ∀ s' rs, history (setStep eq) os s ≠ .ok s' rs) : history (setStep eq) os s = .ub ∧
    ∃ pre o post rs es qs b, os = pre ++ o :: post ∧ Took SetPart pre rs es qs ∧ CxSet.run s.1 es = .ok (b, qs) ∧
      ∀ x, CxSet.step b o ≠ .ok x := by
  have := history_sim (C140_set_step hT) os s
  cases hh : history (setStep eq) os s with
  | ok s' rs => exact (h s' rs hh).elim
  | threw s' e => rw [hh] at this; exact this.elim
  | terminated => rw [hh] at this; exact this.elim
  | ub =>
    rw [hh] at this
    simp only [set_run] at this
    exact ⟨rfl, this⟩

theorem C140_map_undefined [BEq κ] (N : Nat) {eq : Fn E W (κ × κ) Bool} (hT : Truthful eq) (os : List (CxMap.Op κ ν)) (s : Buf (κ × ν) × W)
    (h : ∀ s' rs, history (mapStep N eq) os s ≠ .ok s' rs) : history (mapStep N eq) os s = .ub ∧
    ∃ pre o post rs es qs b, os = pre ++ o :: post ∧ Took MapPart pre rs es qs ∧ CxMap.run N s.1 es = .ok (b, qs) ∧
      ∀ x, CxMap.step N b o ≠ .ok x := by
  have := history_sim (part := MapPart) (step := CxMap.step N)
    (fun o s => (C140_map_step N hT o s).mono (fun b h => .inl h) (fun _ _ h => h)) os s
  cases hh : history (mapStep N eq) os s with
  | ok s' rs => exact (h s' rs hh).elim
  | threw s' e => rw [hh] at this; exact this.elim
  | terminated => rw [hh] at this; exact this.elim
  | ub =>
    rw [hh] at this
    simp only [map_run] at this
    exact ⟨rfl, this⟩

/-! ## Cases that meet the hypotheses -/

section examples

/-- Throws at every third comparison; the world counts them. -/
private def third : Fn String Nat (Nat × Nat) Bool := fun x w => (w + 1, if w % 3 = 2 then .error "third" else .ok (x.1 == x.2))

example : Truthful third := by
  intro x y w w' c h
  simp only [third] at h
  split at h <;> cases h
  rfl

example : history (setStep third) [.insert 1, .insert 2, .insert 3, .insert 1, .merge [7, 2, 9], .iterate] (⟨[0, 0, 0, 0, 0, 0], 0⟩, 0) =
    .ok (⟨[1, 2, 0, 0, 0, 0], 2⟩, 6) [some (.bool true), some (.bool true), none, some (.bool false), none, some (.list [1, 2])] := rfl

example : Took SetPart [.insert 1, .insert 3, .merge [1, 7, 9]] [some (.bool true), none, none] [.insert 1, .merge [1, 7]]
    [.bool true, (.unit : CxSet.Out Nat)] :=
  .returned (.threw (.partly (.merge [1, 7] [9]) .nil))

example : history (mapStep 4 third) [.put 1 10, .put 2 20, .put 3 30, .get 2, .erase 1, .iterate] (⟨[(0, 0), (0, 0), (0, 0)], 0⟩, 0) =
    .ok (⟨[(1, 10), (2, 20), (0, 0)], 2⟩, 6)
      [some (.bool true), some (.bool true), none, some (.val 20), none, some (.list [(1, 10), (2, 20)])] := rfl

end examples

end Verif.Judge
