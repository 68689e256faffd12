import Verif.Cached.Reenter
import Verif.Cached.Write
import Verif.Cached.Threads
import Verif.Cached.Props

/-!
# `latched` and `cached` used from inside their function, through references, and by several threads (C110)
-/

namespace Verif.Cached

variable {σ α : Type}

/-- A call that starts while the object is empty accesses the object before it ends. -/
inductive UsesSelf : Body σ α → Prop where
  | access (s : σ) (k : Option α → σ → Body σ α) : UsesSelf (.access s k)
  | ask (k : Bool → Body σ α) : UsesSelf (k false) → UsesSelf (.ask k)

/-- A call never accesses the object, whatever `has_value()` tells it. -/
inductive Leaves : Body σ α → Prop where
  | done (r : Option α) (s : σ) : Leaves (.done r s)
  | ask (k : Bool → Body σ α) : (∀ b, Leaves (k b)) → Leaves (.ask k)

/-- A fresh object. -/
def RObj.fresh : RObj α := ⟨none, 0, [], 0⟩

theorem evalBody_begun (f : σ → Body σ α) (n : Nat)
    (ih : ∀ s o r, populateR f n s o = some r → o.begun ≤ r.2.2.begun) (b : Body σ α) :
    ∀ o r, evalBody (populateR f n) b o = some r → o.begun ≤ r.2.2.begun := by
  induction b with
  | done v s => intro o r h; simp only [evalBody, Option.some.injEq] at h; rw [← h]
  | ask k ihk => intro o r h; exact ihk _ o r h
  | access s k ihk =>
    intro o r h
    simp only [evalBody] at h
    cases hp : populateR f n s o with
    | none => rw [hp] at h; simp at h
    | some p =>
      obtain ⟨v, s', o'⟩ := p
      rw [hp] at h
      exact Nat.le_trans (ih _ _ _ hp) (ihk v s' o' r h)

theorem populateR_begun (f : σ → Body σ α) (n : Nat) : ∀ s o r, populateR f n s o = some r → o.begun ≤ r.2.2.begun := by
  induction n with
  | zero => intro s o r h; simp [populateR] at h
  | succ n ih =>
    intro s o r h
    simp only [populateR] at h
    cases ho : o.opt with
    | some a => rw [ho] at h; simp only [Option.some.injEq] at h; rw [← h]
    | none =>
      rw [ho] at h; simp only at h
      cases he : evalBody (populateR f n) (f s) ⟨none, o.begun + 1, o.ended, o.lost⟩ with
      | none => rw [he] at h; simp at h
      | some p =>
        have := evalBody_begun f n ih (f s) _ _ he
        obtain ⟨v, s', o'⟩ := p
        rw [he] at h
        simp only at this
        cases v <;> simp only [Option.some.injEq] at h <;> rw [← h] <;> simp only <;> omega

theorem populateR_begun_succ (f : σ → Body σ α) (n : Nat) (s : σ) (o : RObj α) (r) (ho : o.opt = none)
    (h : populateR f n s o = some r) : o.begun + 1 ≤ r.2.2.begun := by
  cases n with
  | zero => simp [populateR] at h
  | succ n =>
    simp only [populateR] at h
    rw [ho] at h; simp only at h
    cases he : evalBody (populateR f n) (f s) ⟨none, o.begun + 1, o.ended, o.lost⟩ with
    | none => rw [he] at h; simp at h
    | some p =>
      have := evalBody_begun f n (populateR_begun f n) (f s) _ _ he
      obtain ⟨v, s', o'⟩ := p
      rw [he] at h
      simp only at this
      cases v <;> simp only [Option.some.injEq] at h <;> rw [← h] <;> simpa using this

theorem evalBody_usesSelf (f : σ → Body σ α) (n : Nat) {b : Body σ α} (hb : UsesSelf b) :
    ∀ o r, o.opt = none → evalBody (populateR f n) b o = some r → o.begun + 1 ≤ r.2.2.begun := by
  induction hb with
  | access s k =>
    intro o r ho h
    simp only [evalBody] at h
    cases hp : populateR f n s o with
    | none => rw [hp] at h; simp at h
    | some p =>
      have h1 := populateR_begun_succ f n s o _ ho hp
      obtain ⟨v, s', o'⟩ := p
      rw [hp] at h
      exact Nat.le_trans h1 (evalBody_begun f n (populateR_begun f n) _ _ _ h)
  | ask k _ ih =>
    intro o r ho h
    simp only [evalBody, ho, Option.isSome_none] at h
    exact ih o r ho h

/-- C110: "a latched value calls its function at most once" is not true of a function that accesses the object: the first
access, if it ends at all, has begun at least two calls. -/
theorem C110_reentrant_twice_violated (f : σ → Body σ α) (s : σ) (hf : UsesSelf (f s)) (n : Nat) (r)
    (h : populateR f n s RObj.fresh = some r) : 2 ≤ r.2.2.begun := by
  cases n with
  | zero => simp [populateR] at h
  | succ n =>
    simp only [populateR, RObj.fresh] at h
    cases he : evalBody (populateR f n) (f s) (⟨none, 0 + 1, [], 0⟩ : RObj α) with
    | none => rw [he] at h; simp at h
    | some p =>
      have := evalBody_usesSelf f n hf _ _ rfl he
      obtain ⟨v, s', o'⟩ := p
      rw [he] at h
      simp only at this
      cases v <;> simp only [Option.some.injEq] at h <;> rw [← h] <;> simpa using this

/-- A function that on its first call accesses the object and adds one, and otherwise returns 10. -/
def selfOnce : Bool → Body Bool Nat
  | true => .access false (fun v s => .done (v.map (· + 1)) s)
  | false => .done (some 10) false

/-- It ends; two calls are made, the inner access returns 10 and the outer one 11, and the value 10 is overwritten without being
destroyed. -/
example : UsesSelf (selfOnce true) ∧
    populateR selfOnce 5 true RObj.fresh = some (some 11, false, ⟨some 11, 2, [some 10, some 11], 1⟩) :=
  ⟨.access _ _, rfl⟩

/-- Every value computed is held or was overwritten. -/
def RObj.Balanced (o : RObj α) : Prop :=
  (o.ended.countP Option.isSome) = o.lost + (if o.opt.isSome then 1 else 0)

theorem evalBody_balanced (f : σ → Body σ α) (n : Nat)
    (ih : ∀ s o r, o.Balanced → populateR f n s o = some r → r.2.2.Balanced) (b : Body σ α) :
    ∀ o r, o.Balanced → evalBody (populateR f n) b o = some r → r.2.2.Balanced := by
  induction b with
  | done v s => intro o r ho h; simp only [evalBody, Option.some.injEq] at h; rw [← h]; exact ho
  | ask k ihk => intro o r ho h; exact ihk _ o r ho h
  | access s k ihk =>
    intro o r ho h
    simp only [evalBody] at h
    cases hp : populateR f n s o with
    | none => rw [hp] at h; simp at h
    | some p =>
      have h1 := ih _ _ _ ho hp
      obtain ⟨v, s', o'⟩ := p
      rw [hp] at h
      exact ihk v s' o' r h1 h

theorem populateR_balanced (f : σ → Body σ α) (n : Nat) :
    ∀ s o r, o.Balanced → populateR f n s o = some r → r.2.2.Balanced := by
  induction n with
  | zero => intro s o r _ h; simp [populateR] at h
  | succ n ih =>
    intro s o r hb h
    simp only [populateR] at h
    cases ho : o.opt with
    | some a => rw [ho] at h; simp only [Option.some.injEq] at h; rw [← h]; exact hb
    | none =>
      rw [ho] at h; simp only at h
      cases he : evalBody (populateR f n) (f s) ⟨none, o.begun + 1, o.ended, o.lost⟩ with
      | none => rw [he] at h; simp at h
      | some p =>
        have := evalBody_balanced f n ih (f s) _ _ (by unfold RObj.Balanced at hb ⊢; simpa [ho] using hb) he
        obtain ⟨v, s', o'⟩ := p
        rw [he] at h
        unfold RObj.Balanced at this ⊢
        simp only at this
        cases v with
        | none => simp only [Option.some.injEq] at h; rw [← h]; simpa using this
        | some a => simp only [Option.some.injEq] at h; rw [← h]; simp [this]

/-- C110: whatever the function does, an access that returns a value returns the one the object then holds, and every value ever computed is
held or was overwritten without being destroyed: as many are overwritten as calls returned a value beyond the first. -/
theorem C110_values_held_or_lost (f : σ → Body σ α) (s : σ) (n : Nat) (v : Option α) (s' : σ) (o' : RObj α)
    (h : populateR f n s RObj.fresh = some (v, s', o')) :
    (∀ a, v = some a → o'.opt = some a) ∧
    o'.ended.countP Option.isSome = o'.lost + (if o'.opt.isSome then 1 else 0) ∧
    o'.ended.getLast? = some v := by
  refine ⟨?_, populateR_balanced f n s _ _ (by simp [RObj.Balanced, RObj.fresh]) h, ?_⟩
  all_goals
    cases n with
    | zero => simp [populateR] at h
    | succ n =>
      simp only [populateR, RObj.fresh] at h
      cases he : evalBody (populateR f n) (f s) (⟨none, 0 + 1, [], 0⟩ : RObj α) with
      | none => rw [he] at h; simp at h
      | some p =>
        obtain ⟨w, s1, o1⟩ := p
        rw [he] at h
        cases w with
        | none =>
          simp only [Option.some.injEq, Prod.mk.injEq] at h
          obtain ⟨rfl, rfl, rfl⟩ := h
          simp
        | some b =>
          simp only [Option.some.injEq, Prod.mk.injEq] at h
          obtain ⟨rfl, rfl, rfl⟩ := h
          simp

example : ∃ v s' o', populateR selfOnce 5 true RObj.fresh = some (v, s', o') ∧ o'.lost = 1 ∧ o'.opt = some 11 := ⟨_, _, _, rfl, rfl, rfl⟩

/-- C110: a function that accesses the object on every call never returns: the first access does not end. -/
theorem C110_reentrant_endless_violated (f : σ → Body σ α) (hf : ∀ s, UsesSelf (f s)) (n : Nat) (s : σ) (o : RObj α)
    (ho : o.opt = none) : populateR f n s o = none := by
  induction n generalizing s o with
  | zero => rfl
  | succ n ih =>
    have key : ∀ {b : Body σ α}, UsesSelf b → ∀ o : RObj α, o.opt = none → evalBody (populateR f n) b o = none := by
      intro b hb
      induction hb with
      | access s k => intro o ho; simp [evalBody, ih s o ho]
      | ask k _ ihk => intro o ho; simp only [evalBody, ho, Option.isSome_none]; exact ihk o ho
    simp only [populateR, ho]
    rw [key (hf s) _ (by simp [ho])]

example : ∀ s : Unit, UsesSelf ((fun _ => .access () (fun v s => .done v s) : Unit → Body Unit Nat) s) := fun _ => .access _ _

/-- What a call that does not access the object gives on an empty object. -/
def Body.result : Body σ α → Option (Option α × σ)
  | .done r s => some (r, s)
  | .ask k => (k false).result
  | .access _ _ => none

theorem evalBody_leaves (pop) {b : Body σ α} (hb : Leaves b) (o : RObj α) (ho : o.opt = none) :
    ∃ r s, b.result = some (r, s) ∧ evalBody pop b o = some (r, s, o) := by
  induction hb with
  | done r s => exact ⟨r, s, rfl, rfl⟩
  | ask k _ ih =>
    obtain ⟨r, s, h1, h2⟩ := ih false
    exact ⟨r, s, h1, by simp only [evalBody, ho, Option.isSome_none]; exact h2⟩

/-- C110 (what is missing: functions that access the object, for which it is false): an access of an object whose function does
not access it — it may ask for `has_value()`, and is told that there is none — is what C45 and C46 take it to be: one call
if there is no value and none otherwise, and nothing is overwritten. -/
theorem C110_not_reentrant_partial (f : σ → Body σ α) (hf : ∀ s, Leaves (f s)) (g : Fn σ α)
    (hg : ∀ s, (f s).result = some (g s)) (n : Nat) (s : σ) (o : RObj α) (log : List (Option α)) :
    ∃ r o', populateR f (n + 1) s o = some (r, (populate g ⟨o.opt, s, log⟩).fs, o') ∧
      o'.opt = (populate g ⟨o.opt, s, log⟩).opt ∧ o'.lost = o.lost ∧
      (r = match deref (populate g ⟨o.opt, s, log⟩) with | .value a => some a | _ => none) ∧
      (∃ l, (populate g ⟨o.opt, s, log⟩).log = log ++ l ∧ o'.ended = o.ended ++ l ∧ o'.begun = o.begun + l.length ∧
        l.length = if o.opt = none then 1 else 0) := by
  cases ho : o.opt with
  | some a =>
    refine ⟨some a, o, by simp [populateR, ho, populate], by simp [populate, ho], rfl, by simp [populate, deref], [], ?_⟩
    simp [populate]
  | none =>
    obtain ⟨r, s', h1, h2⟩ := evalBody_leaves (populateR f n) (hf s) ⟨none, o.begun + 1, o.ended, o.lost⟩ rfl
    have e : g s = (r, s') := by rw [hg s] at h1; simpa using h1
    cases r with
    | none =>
      refine ⟨none, ⟨none, o.begun + 1, o.ended ++ [none], o.lost⟩, ?_, by simp [populate, e], rfl,
        by simp [populate, deref, e], [none], by simp [populate, e], rfl, rfl, by simp⟩
      simp only [populateR, ho]
      rw [h2]
      simp [populate, e, ho]
    | some a =>
      refine ⟨some a, ⟨some a, o.begun + 1, o.ended ++ [some a], o.lost⟩, ?_, by simp [populate, e], rfl,
        by simp [populate, deref, e], [some a], by simp [populate, e], rfl, rfl, by simp⟩
      simp only [populateR, ho]
      rw [h2]
      simp [populate, e, ho]

/-- A function that asks for `has_value()` and counts. -/
example : (∀ s : Nat, Leaves ((fun s => .ask (fun b => .done (some (if b then 0 else s)) (s + 1)) : Nat → Body Nat Nat) s)) ∧
    ∀ s : Nat, ((fun s => .ask (fun b => .done (some (if b then 0 else s)) (s + 1)) : Nat → Body Nat Nat) s).result =
      some ((fun s => (some s, s + 1) : Fn Nat Nat) s) :=
  ⟨fun _ => .ask _ (fun _ => .done _ _), fun _ => rfl⟩

/-! ## Writing through `refresh()` -/

theorem wrun_append (f : Fn σ α) (o : Obj σ α) (xs ys : List (WOp α)) :
    wrun f o (xs ++ ys) = ((wrun f (wrun f o xs).1 ys).1, (wrun f o xs).2 ++ (wrun f (wrun f o xs).1 ys).2) := by
  induction xs generalizing o with
  | nil => rfl
  | cons x xs ih => simp [wrun, ih]

/-- C110: a value assigned through the reference that `refresh()` returns stays: until the next reset or refresh every access returns
it and calls nothing, whatever the function returned. -/
theorem C110_write_through_refresh (f : Fn σ α) (o : Obj σ α) (pre : List (WOp α)) (a : α) (mid : List Op)
    (hf : (f (wrun f o pre).1.fs).1.isSome = true) (hmid : ∀ op ∈ mid, op = .access ∨ op = .hasValue) :
    let r := wrun f o (pre ++ .refreshAssign a :: mid.map .call)
    r.1.opt = some a ∧
    r.1.log = (wrun f o pre).1.log ++ [(f (wrun f o pre).1.fs).1] ∧
    r.2 = (wrun f o pre).2 ++ .unit :: mid.map (fun op => if op = .access then .value a else .flag true) := by
  simp only [wrun_append]
  generalize (wrun f o pre).1 = p at *
  have tail : ∀ q : Obj σ α, q.opt = some a → wrun f q (mid.map .call) =
      (q, mid.map (fun op => if op = .access then .value a else .flag true)) := by
    intro q hq
    induction mid with
    | nil => rfl
    | cons op mid ih =>
      have := ih (fun op h => hmid op (List.mem_cons_of_mem _ h))
      rcases hmid op (List.mem_cons_self ..) with rfl | rfl
      · simp [wrun, wstep, step, populate, hq, deref, this]
      · simp [wrun, wstep, step, hq, this]
  obtain ⟨v, hv⟩ := Option.isSome_iff_exists.1 hf
  have e : wstep f p (.refreshAssign a) = (⟨some a, (f p.fs).2, p.log ++ [(f p.fs).1]⟩, .unit) := by
    simp [wstep, step, populate, hv]
  simp only [wrun, e]
  rw [tail _ rfl]
  exact ⟨rfl, rfl, rfl⟩

/-- C110: so "an access returns the result of the most recent call" (C46) is not true of programs that write through that
reference. -/
theorem C110_write_violates_latest_violated (f : Fn σ α) (s : σ) (v a : α) (hv : (f s).1 = some v) (ha : a ≠ v) :
    let r := wrun f (Obj.fresh s) [.refreshAssign a, .call .access]
    r.1.log = [some v] ∧ r.2 = [.unit, .value a] ∧ r.2[1]? ≠ some (.value v) := by
  have := C110_write_through_refresh f (Obj.fresh s) [] a [.access] (by simp [wrun, Obj.fresh, hv]) (by simp)
  simp only [List.nil_append, List.map_cons, List.map_nil, wrun, Obj.fresh, if_true, hv] at this
  obtain ⟨-, h2, h3⟩ := this
  refine ⟨h2, h3, ?_⟩
  intro h
  have h4 : (wrun f (Obj.fresh s) [.refreshAssign a, .call .access]).2 = [.unit, .value a] := h3
  rw [h4] at h
  simp at h
  exact ha h

example : ((fun s => (some s, s + 1) : Fn Nat Nat) 3).1 = some 3 ∧ (7 : Nat) ≠ 3 := by decide

/-! ## Several threads -/

/-- A data race: two threads use the same location, at least one of them writes it, and nothing orders them (the threads have
no synchronisation at all). -/
def Race (tr : List Event) : Prop :=
  ∃ e1 ∈ tr, ∃ e2 ∈ tr, e1.thread ≠ e2.thread ∧ e1.loc = e2.loc ∧ (e1.write = true ∨ e2.write = true)

/-- All threads have ended. -/
def TSys.Ended (y : TSys σ α) : Prop := ∀ p ∈ y.threads, ∃ rs, p = .done rs

/-- What a thread does from now on with an object that holds `a`: it writes nothing and calls nothing, and its results
are `rs`. -/
def TProg.Reads (a : α) (rs : List (Res α)) : TProg α → Prop
  | .done r => r = rs
  | .readFlag k => (k true).Reads a rs
  | .readValue k => (k a).Reads a rs
  | _ => False

/-- What an operation returns if the object holds `a`. -/
def COp.on (a : α) : COp → Res α
  | .hasValue => .flag true
  | .access => .value a

theorem threadOf_reads (a : α) (ops : List COp) (acc : List (Res α)) :
    (threadOf ops acc).Reads a (acc ++ ops.map (COp.on a)) := by
  induction ops generalizing acc with
  | nil => simp [threadOf, TProg.Reads]
  | cons op ops ih =>
    have := ih (acc ++ [op.on a])
    rw [List.append_assoc] at this
    cases op
    · exact this
    · exact this

theorem mem_set_or {β : Type} {l : List β} {i : Nat} {x y : β} (h : x ∈ l.set i y) : x = y ∨ x ∈ l := by
  rcases List.mem_or_eq_of_mem_set h with h | h
  · exact Or.inr h
  · exact Or.inl h

/-- C110: once a value is held, any number of threads may use the object in any order: no thread writes, so there is no race,
the function is not called, and every operation returns what it returns alone. -/
theorem C110_threads_after_first_access_partial (f : σ → α × σ) (a : α) (s : σ) (progs : List (List COp)) (ts : List Nat)
    (y : TSys σ α) (h : (TSys.start (some a) s progs).run f ts = some y) :
    ¬ Race y.trace ∧ y.calls = 0 ∧ y.fs = s ∧ y.value = some a ∧
    ∀ (t : Nat) rs, y.threads[t]? = some (.done rs) → ∃ ops, progs[t]? = some ops ∧ rs = ops.map (COp.on a) := by
  have inv : ∀ (ts : List Nat) (x : TSys σ α), x.flag = true → x.value = some a →
      (∀ e ∈ x.trace, e.write = false) →
      (∀ (t : Nat) p, x.threads[t]? = some p → ∃ ops, progs[t]? = some ops ∧ p.Reads a (ops.map (COp.on a))) →
      x.calls = 0 → x.fs = s → x.run f ts = some y →
      (∀ e ∈ y.trace, e.write = false) ∧ y.calls = 0 ∧ y.fs = s ∧ y.value = some a ∧
      (∀ (t : Nat) p, y.threads[t]? = some p → ∃ ops, progs[t]? = some ops ∧ p.Reads a (ops.map (COp.on a))) := by
    intro ts
    induction ts with
    | nil =>
      intro x _ hv h1 h2 h3 h4 hr
      simp only [TSys.run, Option.some.injEq] at hr
      subst hr
      exact ⟨h1, h3, h4, hv, h2⟩
    | cons t ts ih =>
      intro x hf hv h1 h2 h3 h4 hr
      simp only [TSys.run] at hr
      cases hs : x.step f t with
      | none => rw [hs] at hr; simp at hr
      | some x' =>
        rw [hs] at hr
        simp only at hr
        unfold TSys.step at hs
        have upd : ∀ (p q : TProg α), x.threads[t]? = some p → (∀ rs, p.Reads a rs → q.Reads a rs) →
            ∀ (u : Nat) p', (x.threads.set t q)[u]? = some p' →
              ∃ ops, progs[u]? = some ops ∧ p'.Reads a (ops.map (COp.on a)) := by
          intro p q hp hpq u p' hu
          rw [List.getElem?_set] at hu
          by_cases e : t = u
          · subst e
            have hlt : t < x.threads.length := (List.getElem?_eq_some_iff.1 hp).1
            simp [hlt] at hu
            subst hu
            obtain ⟨ops, ho, hr⟩ := h2 t p hp
            exact ⟨ops, ho, hpq _ hr⟩
          · simp [e] at hu
            exact h2 u p' hu
        cases hp : x.threads[t]? with
        | none => rw [hp] at hs; simp at hs
        | some p =>
          rw [hp] at hs
          obtain ⟨ops, _, hR⟩ := h2 t p hp
          cases p with
          | done rs => simp at hs
          | readFlag k =>
            simp only [Option.some.injEq] at hs
            subst hs
            refine ih _ (by exact hf) (by exact hv) ?_ (upd _ (k x.flag) hp ?_) (by exact h3) (by exact h4) hr
            · intro e he
              simp only [List.mem_append, List.mem_singleton] at he
              rcases he with he | rfl
              · exact h1 e he
              · rfl
            · intro rs hrs; rw [hf]; exact hrs
          | readValue k =>
            rw [hv] at hs
            simp only [Option.some.injEq] at hs
            subst hs
            refine ih _ (by exact hf) rfl ?_ (upd _ (k a) hp ?_) (by exact h3) (by exact h4) hr
            · intro e he
              simp only [List.mem_append, List.mem_singleton] at he
              rcases he with he | rfl
              · exact h1 e he
              · rfl
            · intro rs hrs; exact hrs
          | call k => exact hR.elim
          | writeValue b k => exact hR.elim
          | writeFlag k => exact hR.elim
  have hstart : ∀ (t : Nat) p, (TSys.start (some a) s progs).threads[t]? = some p →
      ∃ ops, progs[t]? = some ops ∧ p.Reads a (ops.map (COp.on a)) := by
    intro t p hp
    simp only [TSys.start, List.getElem?_map, Option.map_eq_some_iff] at hp
    obtain ⟨ops, ho, rfl⟩ := hp
    exact ⟨ops, ho, by simpa using threadOf_reads a ops []⟩
  obtain ⟨h1, h2, h3, h4, h5⟩ := inv ts _ rfl rfl (by simp [TSys.start]) hstart rfl rfl h
  refine ⟨?_, h2, h3, h4, ?_⟩
  · rintro ⟨e1, m1, e2, m2, -, -, hw | hw⟩
    · rw [h1 e1 m1] at hw; simp at hw
    · rw [h1 e2 m2] at hw; simp at hw
  · intro t rs ht
    obtain ⟨ops, ho, hR⟩ := h5 t _ ht
    exact ⟨ops, ho, hR⟩

/-- Two threads and a populated object. -/
example : ((TSys.start (some 5) (0 : Nat) [[.access, .hasValue], [.access]]).run (fun s => (s, s + 1)) [0, 1, 1, 0, 0]).isSome =
    true := rfl

/-- The thread sets the flag on its way to the end if it never finds it set. -/
def TProg.MustWrite : TProg α → Prop
  | .done _ => False
  | .readFlag k => (k false).MustWrite
  | .readValue k => ∀ a, (k a).MustWrite
  | .call k => ∀ a, (k a).MustWrite
  | .writeValue _ k => k.MustWrite
  | .writeFlag _ => True

/-- The thread reads the flag before it does anything else. -/
def TProg.StartsReading : TProg α → Prop
  | .readFlag _ => True
  | _ => False

theorem threadOf_mustWrite (ops : List COp) (acc : List (Res α)) (h : COp.access ∈ ops) :
    (threadOf ops acc : TProg α).MustWrite := by
  induction ops generalizing acc with
  | nil => simp at h
  | cons op ops ih =>
    cases op with
    | hasValue => exact ih _ (by simpa using h)
    | access =>
      show TProg.MustWrite (TProg.readFlag _)
      simp [TProg.MustWrite]

/-- C110: "at most once, and all accesses return that result" is not true of several threads: if two threads access an object that
holds nothing, every execution that comes to its end has a data race on the flag, which is undefined behaviour. -/
theorem C110_threads_race_violated (f : σ → α × σ) (s : σ) (progs : List (List COp)) (i j : Nat) (hij : i ≠ j)
    (pi pj : List COp) (hi : progs[i]? = some pi) (hj : progs[j]? = some pj) (ai : COp.access ∈ pi) (aj : pj ≠ [])
    (ts : List Nat) (y : TSys σ α) (h : (TSys.start none s progs).run f ts = some y) (hend : y.Ended) : Race y.trace := by
  -- the flag is only set by a recorded write; thread `i` has yet to write or a write is recorded; threads `i` and `j`
  -- have yet to read the flag or a read is recorded
  have inv : ∀ (ts : List Nat) (x : TSys σ α),
      (x.flag = true → ∃ e ∈ x.trace, e.loc = .flag ∧ e.write = true) →
      ((∃ e ∈ x.trace, e.loc = .flag ∧ e.write = true) ∨ ∃ p, x.threads[i]? = some p ∧ p.MustWrite) →
      (∀ u, u = i ∨ u = j → (∃ e ∈ x.trace, e.thread = u ∧ e.loc = .flag) ∨
        ∃ p, x.threads[u]? = some p ∧ p.StartsReading) →
      x.run f ts = some y →
      ((∃ e ∈ y.trace, e.loc = .flag ∧ e.write = true) ∨ ∃ p, y.threads[i]? = some p ∧ p.MustWrite) ∧
      (∀ u, u = i ∨ u = j → (∃ e ∈ y.trace, e.thread = u ∧ e.loc = .flag) ∨
        ∃ p, y.threads[u]? = some p ∧ p.StartsReading) := by
    intro ts
    induction ts with
    | nil =>
      intro x _ h2 h3 hr
      simp only [TSys.run, Option.some.injEq] at hr
      subst hr
      exact ⟨h2, h3⟩
    | cons t ts ih =>
      intro x h1 h2 h3 hr
      simp only [TSys.run] at hr
      cases hs : x.step f t with
      | none => rw [hs] at hr; simp at hr
      | some x' =>
        rw [hs] at hr
        simp only at hr
        unfold TSys.step at hs
        cases hp : x.threads[t]? with
        | none => rw [hp] at hs; simp at hs
        | some p =>
          have hlt : t < x.threads.length := (List.getElem?_eq_some_iff.1 hp).1
          rw [hp] at hs
          have other : ∀ (q : TProg α) u, u ≠ t → (x.threads.set t q)[u]? = x.threads[u]? := by
            intro q u hu; rw [List.getElem?_set_ne (Ne.symm hu)]
          have self : ∀ (q : TProg α), (x.threads.set t q)[t]? = some q := by
            intro q; rw [List.getElem?_set]; simp [hlt]
          -- steps that record nothing new about the flag's reads keep the third fact if the thread does not start by reading
          have keep3 : ∀ (q : TProg α) (l : List Event), ¬ p.StartsReading →
              ∀ u, u = i ∨ u = j → (∃ e ∈ x.trace ++ l, e.thread = u ∧ e.loc = .flag) ∨
                ∃ p, (x.threads.set t q)[u]? = some p ∧ p.StartsReading := by
            intro q l hn u hu
            rcases h3 u hu with ⟨e, he, h⟩ | ⟨p', hp', h⟩
            · exact Or.inl ⟨e, List.mem_append_left _ he, h⟩
            · by_cases e : u = t
              · subst e; rw [hp] at hp'; simp at hp'; subst hp'; exact absurd h hn
              · exact Or.inr ⟨p', by rw [other q u e]; exact hp', h⟩
          have keep2 : ∀ (q : TProg α) (l : List Event), (p.MustWrite → q.MustWrite) →
              ((∃ e ∈ x.trace ++ l, e.loc = .flag ∧ e.write = true) ∨
                ∃ p, (x.threads.set t q)[i]? = some p ∧ p.MustWrite) := by
            intro q l hq
            rcases h2 with ⟨e, he, h⟩ | ⟨p', hp', h⟩
            · exact Or.inl ⟨e, List.mem_append_left _ he, h⟩
            · by_cases e : i = t
              · rw [e] at hp' ⊢; rw [hp] at hp'; simp at hp'; subst hp'
                exact Or.inr ⟨q, self q, hq h⟩
              · exact Or.inr ⟨p', by rw [other q i e]; exact hp', h⟩
          have keep1 : ∀ l : List Event, x.flag = true → ∃ e ∈ x.trace ++ l, e.loc = .flag ∧ e.write = true := by
            intro l hfl
            obtain ⟨e, he, h⟩ := h1 hfl
            exact ⟨e, List.mem_append_left _ he, h⟩
          cases p with
          | done rs => simp at hs
          | readFlag k =>
            simp only [Option.some.injEq] at hs
            subst hs
            refine ih _ (keep1 _) ?_ ?_ hr
            · cases hfl : x.flag with
              | true =>
                obtain ⟨e, he, h⟩ := h1 hfl
                exact Or.inl ⟨e, List.mem_append_left _ he, h⟩
              | false => exact keep2 _ _ (fun h => h)
            · intro u hu
              by_cases e : u = t
              · exact Or.inl ⟨⟨t, .flag, false⟩, by simp, e.symm, rfl⟩
              · rcases h3 u hu with ⟨e', he, h⟩ | ⟨p', hp', h⟩
                · exact Or.inl ⟨e', List.mem_append_left _ he, h⟩
                · exact Or.inr ⟨p', by rw [other _ u e]; exact hp', h⟩
          | readValue k =>
            cases hv : x.value with
            | none => rw [hv] at hs; simp at hs
            | some a =>
              rw [hv] at hs
              simp only [Option.some.injEq] at hs
              subst hs
              exact ih _ (keep1 _) (keep2 _ _ (fun h => h a)) (keep3 _ _ (by simp [TProg.StartsReading])) hr
          | call k =>
            simp only [Option.some.injEq] at hs
            subst hs
            have k1 := keep1 []
            have k2 := keep2 (k (f x.fs).1) [] (fun h => h _)
            have k3 := keep3 (k (f x.fs).1) [] (by simp [TProg.StartsReading])
            simp only [List.append_nil] at k1 k2 k3
            exact ih _ (by exact k1) (by exact k2) (by exact k3) hr
          | writeValue b k =>
            simp only [Option.some.injEq] at hs
            subst hs
            exact ih _ (keep1 _) (keep2 k _ (fun h => h)) (keep3 _ _ (by simp [TProg.StartsReading])) hr
          | writeFlag k =>
            simp only [Option.some.injEq] at hs
            subst hs
            have hw : ∃ e ∈ x.trace ++ [⟨t, .flag, true⟩], Event.loc e = .flag ∧ e.write = true :=
              ⟨⟨t, .flag, true⟩, by simp, rfl, rfl⟩
            exact ih _ (fun _ => hw) (Or.inl hw) (keep3 _ _ (by simp [TProg.StartsReading])) hr
  have hth : ∀ (u : Nat) ops, progs[u]? = some ops → (TSys.start (α := α) none s progs).threads[u]? = some (threadOf ops []) := by
    intro u ops hu; simp [TSys.start, hu]
  have hsr : ∀ ops : List COp, ops ≠ [] → (threadOf ops [] : TProg α).StartsReading := by
    intro ops h
    cases ops with
    | nil => exact absurd rfl h
    | cons op ops => cases op <;> simp [threadOf, opProg, TProg.StartsReading]
  obtain ⟨h2, h3⟩ := inv ts _ (by simp [TSys.start]) (Or.inr ⟨_, hth i pi hi, threadOf_mustWrite _ _ ai⟩)
    (by
      rintro u (rfl | rfl)
      · exact Or.inr ⟨_, hth _ _ hi, hsr _ (by rintro rfl; simp at ai)⟩
      · exact Or.inr ⟨_, hth _ _ hj, hsr _ aj⟩) h
  have hread : ∀ u, u = i ∨ u = j → ∃ e ∈ y.trace, e.thread = u ∧ e.loc = .flag := by
    intro u hu
    rcases h3 u hu with h | ⟨p, hp, h⟩
    · exact h
    · obtain ⟨rs, rfl⟩ := hend p (List.mem_of_getElem? hp)
      exact h.elim
  have hwrite : ∃ e ∈ y.trace, e.loc = .flag ∧ e.write = true := by
    rcases h2 with h | ⟨p, hp, h⟩
    · exact h
    · obtain ⟨rs, rfl⟩ := hend p (List.mem_of_getElem? hp)
      exact h.elim
  obtain ⟨w, hw, hwl, hww⟩ := hwrite
  obtain ⟨ri, hri, hti, hli⟩ := hread i (Or.inl rfl)
  obtain ⟨rj, hrj, htj, hlj⟩ := hread j (Or.inr rfl)
  by_cases e : w.thread = i
  · exact ⟨w, hw, rj, hrj, by rw [e, htj]; exact hij, by rw [hwl, hlj], Or.inl hww⟩
  · exact ⟨w, hw, ri, hri, by rw [hti]; exact e, by rw [hwl, hli], Or.inl hww⟩

/-- Two threads find the object empty: both call the function, and the first one's access returns 0 or 1 as the schedule has
it. -/
example : ∃ y, (TSys.start (none : Option Nat) (0 : Nat) [[.access], [.access]]).run (fun s => (s, s + 1))
      [0, 1, 0, 0, 0, 1, 1, 1, 0, 1] = some y ∧ y.calls = 2 ∧ y.Ended ∧ y.threads[0]? = some (.done [.value 1]) := by
  refine ⟨_, rfl, rfl, ?_, rfl⟩
  intro p hp
  simp [TSys.start, threadOf, opProg] at hp
  subst hp
  exact ⟨_, rfl⟩

theorem TSys.run_append (f : σ → α × σ) (ts us : List Nat) (x y : TSys σ α) (h : x.run f ts = some y) :
    x.run f (ts ++ us) = y.run f us := by
  induction ts generalizing x with
  | nil => simp only [TSys.run, Option.some.injEq] at h; simp [h]
  | cons t ts ih =>
    simp only [TSys.run, List.cons_append] at h ⊢
    cases hs : x.step f t with
    | none => rw [hs] at h; simp at h
    | some x' => rw [hs] at h; exact ih x' h

/-- C110, several threads (negation): for any number of threads that each begin with an access to an empty object there is a schedule in which
every one of them calls the function. -/
theorem C110_threads_calls_violated (f : σ → α × σ) (s : σ) (progs : List (List COp)) (hp : ∀ p ∈ progs, p.head? = some .access) :
    ∃ ts y, (TSys.start none s progs).run f ts = some y ∧ y.calls = progs.length := by
  have h1 : ∀ m, m ≤ progs.length → ∃ y : TSys σ α, (TSys.start none s progs).run f (List.range m) = some y ∧ y.flag = false ∧
      y.calls = 0 ∧ y.threads.length = progs.length ∧ (∀ t, t < m → ∃ k, y.threads[t]? = some (.call k)) ∧
      ∀ t, m ≤ t → t < progs.length → ∃ ops, y.threads[t]? = some (threadOf (.access :: ops) []) := by
    intro m
    induction m with
    | zero =>
      intro _
      refine ⟨_, rfl, rfl, rfl, by simp [TSys.start], by simp, fun t _ ht => ?_⟩
      have := hp progs[t] (List.getElem_mem ht)
      obtain ⟨ops, ho⟩ : ∃ ops, progs[t] = .access :: ops := by
        cases hq : progs[t] with
        | nil => rw [hq] at this; simp at this
        | cons a l => rw [hq] at this; simp at this; exact ⟨l, by rw [this]⟩
      exact ⟨ops, by simp [TSys.start, List.getElem?_eq_getElem ht, ho]⟩
    | succ m ih =>
      intro hm
      obtain ⟨y, hr, hf, hc, hl, ha, hb⟩ := ih (by omega)
      obtain ⟨ops, ho⟩ := hb m (Nat.le_refl m) (by omega)
      simp only [threadOf, opProg] at ho
      refine ⟨⟨false, y.value, y.fs, 0, y.threads.set m (.call fun a => .writeValue a (.writeFlag (.readValue fun v => threadOf ops ([] ++ [Res.value v])))), y.trace ++ [⟨m, .flag, false⟩]⟩, ?_, rfl, rfl, by simp [hl], ?_, ?_⟩
      · rw [List.range_succ, TSys.run_append f _ _ _ _ hr]
        simp only [TSys.run, TSys.step, ho, hf, hc, Bool.false_eq_true, if_false]
      · intro t ht
        by_cases e : t = m
        · subst e; exact ⟨_, by rw [List.getElem?_set]; simp only [if_true]; rw [if_pos (by omega)]⟩
        · obtain ⟨k, hk⟩ := ha t (by omega)
          exact ⟨k, by rw [List.getElem?_set]; simp [Ne.symm e, hk]⟩
      · intro t ht htl
        obtain ⟨o, hk⟩ := hb t (by omega) htl
        exact ⟨o, by rw [List.getElem?_set, if_neg (by omega), hk]⟩
  obtain ⟨y, hr, _, hc, hl, ha, _⟩ := h1 progs.length (Nat.le_refl _)
  have h2 : ∀ m, m ≤ progs.length → ∃ z : TSys σ α, y.run f (List.range m) = some z ∧ z.calls = m ∧ z.threads.length = progs.length ∧
      ∀ t, m ≤ t → t < progs.length → ∃ k, z.threads[t]? = some (.call k) := by
    intro m
    induction m with
    | zero => intro _; exact ⟨y, rfl, hc, hl, fun t _ ht => ha t ht⟩
    | succ m ih =>
      intro hm
      obtain ⟨z, hz, hzc, hzl, hk⟩ := ih (by omega)
      obtain ⟨k, hkm⟩ := hk m (Nat.le_refl m) (by omega)
      refine ⟨{ z with threads := z.threads.set m (k (f z.fs).1), fs := (f z.fs).2, calls := z.calls + 1 }, ?_, by simp [hzc], by simp [hzl], ?_⟩
      · rw [List.range_succ, TSys.run_append f _ _ _ _ hz]
        simp only [TSys.run, TSys.step, hkm]
      · intro t ht htl
        obtain ⟨k', h'⟩ := hk t (by omega) htl
        exact ⟨k', by simp only; rw [List.getElem?_set, if_neg (by omega), h']⟩
  obtain ⟨z, hz, hzc, _⟩ := h2 progs.length (Nat.le_refl _)
  exact ⟨_, z, (TSys.run_append f _ _ _ _ hr).trans hz, hzc⟩

example : ∀ p ∈ [[COp.access], [.access, .hasValue], [.access]], p.head? = some .access := by decide

end Verif.Cached
