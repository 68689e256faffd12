import Verif.Cached.Init
import Verif.Cached.Props

/-!
# C45 and C46 for every value type
-/

namespace Verif.Cached

variable {σ α : Type}

/-- A value type without such a constructor: the histories are those of `Verif.Cached.Model`. -/
theorem runI_result (f : Fn σ α) (ops : List Op) : ∀ o, runI .result f o ops = run f o ops := by
  induction ops with
  | nil => intro o; rfl
  | cons op ops ih =>
    intro o
    have hs : stepI .result f o op = step f o op := by
      have hp : ∀ o : Obj σ α, populateI .result f o = populate f o := by
        intro o
        unfold populateI populate
        cases o.opt <;> rfl
      cases op <;> simp only [stepI, step, hp]
    simp only [runI, run, hs, ih]

theorem runI_wrapper (w : α) (f : Fn σ α) (ops : List Op) : ∀ o : Obj σ α, (∀ a, o.opt = some a → a = w) →
    (runI (.wrapper w) f o ops).1.log = o.log ∧ (runI (.wrapper w) f o ops).1.fs = o.fs ∧
    ∀ k (hk : k < ops.length), ops[k] = .access ∨ ops[k] = .refresh →
      (runI (.wrapper w) f o ops).2[k]? = some (.value w) := by
  induction ops with
  | nil => intro o _; exact ⟨rfl, rfl, fun k hk => absurd hk (by simp)⟩
  | cons op ops ih =>
    intro o ho
    have hp : ∀ o : Obj σ α, (∀ a, o.opt = some a → a = w) → populateI (.wrapper w) f o = { o with opt := some w } := by
      intro o ho
      unfold populateI
      cases hopt : o.opt with
      | none => rfl
      | some a =>
        obtain ⟨_, _, _⟩ := o
        simp only at hopt
        subst hopt
        rw [ho a rfl]
    have hs : (stepI (.wrapper w) f o op).1.log = o.log ∧ (stepI (.wrapper w) f o op).1.fs = o.fs ∧
        (∀ a, (stepI (.wrapper w) f o op).1.opt = some a → a = w) ∧
        (op = .access ∨ op = .refresh → (stepI (.wrapper w) f o op).2 = .value w) := by
      cases op with
      | hasValue => exact ⟨rfl, rfl, ho, fun h => by rcases h with h | h <;> exact nomatch h⟩
      | access =>
        simp only [stepI, hp o ho, deref]
        exact ⟨trivial, trivial, fun a h => by cases h; rfl, fun _ => trivial⟩
      | reset => exact ⟨rfl, rfl, (fun a h => nomatch h), fun h => by rcases h with h | h <;> exact nomatch h⟩
      | refresh =>
        simp only [stepI, hp { o with opt := none } (fun a h => nomatch h), deref]
        exact ⟨trivial, trivial, fun a h => by cases h; rfl, fun _ => trivial⟩
    obtain ⟨h1, h2, h3, h4⟩ := hs
    obtain ⟨i1, i2, i3⟩ := ih _ h3
    refine ⟨i1.trans h1, i2.trans h2, fun k hk hop => ?_⟩
    cases k with
    | zero =>
      simp only [runI, List.getElem?_cons_zero, Option.some.injEq]
      exact h4 hop
    | succ k =>
      simp only [runI, List.getElem?_cons_succ]
      exact i3 k (by simpa using hk) hop

/-- C45 (what is missing: value types with a constructor that takes the wrapper of the function; see below).  A value
type that is initialised by the conversion function: the function is called at most once, at the first access, every
access returns the result of that call, and `has_value` is true iff an access happened. -/
theorem C45_latched_initialised_partial (f : Fn σ α) (s : σ) (a : α) (hf : (f s).1 = some a) (ops : List Op)
    (hops : ∀ op ∈ ops, op = .access ∨ op = .hasValue) :
    let r := runI .result f (Obj.fresh s) ops
    r.1.log = (if Op.access ∈ ops then [some a] else []) ∧
    ∀ k (hk : k < ops.length), r.2[k]? = some
      (match ops[k] with
      | .hasValue => .flag (decide (Op.access ∈ ops.take k))
      | _ => .value a) := by
  rw [runI_result]
  exact C45_latched_once f s a hf ops hops

example : ((fun s => (some s, s + 1) : Fn Nat Nat) 3).1 = some 3 := rfl

/-- C45 is false of value types with a constructor that takes the wrapper, such as `std::any` and
`std::function<void()>`: however often the value is accessed, the function is never called, and the accesses return
a value `w` made from the wrapper, not the result of the function. -/
theorem C45_constructor_for_anything_violated (w : α) (f : Fn σ α) (s : σ) (ops : List Op) (h : Op.access ∈ ops)
    (a : α) (ha : a ≠ w) :
    let r := runI (.wrapper w) f (Obj.fresh s) ops
    r.1.log = [] ∧ r.1.fs = s ∧
    (∀ k (hk : k < ops.length), ops[k] = .access → r.2[k]? = some (.value w)) ∧
    ∃ k, ∃ hk : k < ops.length, ops[k] = .access ∧ r.2[k]? ≠ some (.value a) := by
  obtain ⟨h1, h2, h3⟩ := runI_wrapper w f ops (Obj.fresh s) (fun a h => nomatch h)
  refine ⟨h1, h2, fun k hk hop => h3 k hk (.inl hop), ?_⟩
  obtain ⟨k, hk, hop⟩ := List.getElem_of_mem h
  refine ⟨k, hk, hop, ?_⟩
  rw [h3 k hk (.inl hop)]
  intro e
  cases e
  exact ha rfl

example : Op.access ∈ [Op.hasValue, Op.access, Op.access] ∧ (3 : Nat) ≠ 7 := by decide

/-- C46 is false of such value types too: no refresh and no access ever calls the function, so after any history with
a refresh the number of calls is not the number C46 gives. -/
theorem C46_constructor_for_anything_violated (w : α) (f : Fn σ α) (s : σ) (ops : List Op) :
    let r := runI (.wrapper w) f (Obj.fresh s) ops
    r.1.log.length = 0 ∧
    (∀ k (hk : k < ops.length), ops[k] = .access ∨ ops[k] = .refresh → r.2[k]? = some (.value w)) ∧
    (Op.refresh ∈ ops → r.1.log.length ≠ numCalls ops) := by
  obtain ⟨h1, _, h3⟩ := runI_wrapper w f ops (Obj.fresh s) (fun a h => nomatch h)
  have h0 : (runI (.wrapper w) f (Obj.fresh s) ops).1.log.length = 0 := by rw [h1]; rfl
  refine ⟨h0, h3, fun hr => ?_⟩
  rw [h0]
  have : 0 < numCalls ops := by
    obtain ⟨k, hk, hop⟩ := List.getElem_of_mem hr
    unfold numCalls
    refine List.length_pos_of_mem (a := k) (List.mem_filter.mpr ⟨List.mem_range.mpr hk, ?_⟩)
    simp [List.getElem?_eq_getElem hk, hop]
  omega

example : Op.refresh ∈ [Op.access, Op.refresh] := by decide

/-- C46 (what is missing: value types with a constructor that takes the wrapper of the function).  A value type that
is initialised by the conversion function: the calls made are the refreshes plus the accesses that find the value
absent; each access and refresh returns the result of the most recent call; `has_value` is false exactly after
construction or a `reset` with no later access or refresh. -/
theorem C46_cached_initialised_partial (f : σ → α × σ) (s : σ) (ops : List Op) :
    let g : Fn σ α := fun s => (some (f s).1, (f s).2)
    let r := runI .result g (Obj.fresh s) ops
    r.1.log = (List.range (numCalls ops)).map (callRes g s) ∧
    ∀ k (hk : k < ops.length), r.2[k]? = some
      (match ops[k] with
      | .hasValue => .flag (present (ops.take k))
      | .reset => .unit
      | _ => .value (f (callState g s (numCalls (ops.take (k + 1)) - 1))).1) := by
  intro g
  rw [runI_result]
  exact C46_cached f s ops

end Verif.Cached
