import Verif.Cached.Model
import Mathlib.Tactic.NormNum
import Mathlib.Data.List.Induction

/-!
# `latched` and `cached` (C45, C46)
-/

namespace Verif.Cached

variable {σ α : Type}

/-- The state of the callable before its `k`-th call (from 0). -/
def callState (f : Fn σ α) (s : σ) : Nat → σ
  | 0 => s
  | k + 1 => (f (callState f s k)).2

/-- The result of the `k`-th call. -/
def callRes (f : Fn σ α) (s : σ) (k : Nat) : Option α := (f (callState f s k)).1

/-- Number of accesses in a history. -/
def accesses (ops : List Op) : Nat := ops.count .access

/-- The first successful one among the first `n` calls. -/
def firstOk (f : Fn σ α) (s : σ) (n : Nat) : Option α := (List.range n).findSome? (callRes f s)

theorem firstOk_succ (f : Fn σ α) (s : σ) (n : Nat) :
    firstOk f s (n + 1) = (firstOk f s n).or (callRes f s n) := by
  unfold firstOk
  rw [List.range_succ, List.findSome?_append]
  cases (List.range n).findSome? (callRes f s) <;> simp

theorem run_append (f : Fn σ α) (o : Obj σ α) (ops : List Op) (op : Op) :
    run f o (ops ++ [op]) = let r := run f o ops; let q := step f r.1 op; (q.1, r.2 ++ [q.2]) := by
  induction ops generalizing o with
  | nil => rfl
  | cons p ops ih => simp [run, ih]

theorem run_length (f : Fn σ α) (o : Obj σ α) (ops : List Op) : (run f o ops).2.length = ops.length := by
  induction ops generalizing o with
  | nil => rfl
  | cons p ops ih => simp [run, ih]

/-- How many of the first `n` accesses of a latched value call the function: those before which no call
succeeded. -/
def latchCalls (f : Fn σ α) (s : σ) (n : Nat) : Nat :=
  ((List.range n).filter (fun j => (firstOk f s j).isNone)).length

/-- **C45, with exceptions.** Over any history of accesses and `has_value`, the function is called by each
access until a call succeeds and never again; the `j`-th access returns the first successful result among
calls `0..j`, or the exception; `has_value` is true iff a call has succeeded. -/
theorem C45_latched (f : Fn σ α) (s : σ) (ops : List Op) (hops : ∀ op ∈ ops, op = .access ∨ op = .hasValue) :
    let r := run f (Obj.fresh s) ops
    r.1.log = (List.range (latchCalls f s (accesses ops))).map (callRes f s) ∧
    r.1.opt = firstOk f s (accesses ops) ∧
    ∀ k (hk : k < ops.length), r.2[k]? = some
      (match ops[k] with
      | .hasValue => .flag (firstOk f s (accesses (ops.take k))).isSome
      | _ => match firstOk f s (accesses (ops.take k) + 1) with
        | some a => .value a
        | none => .threw) := by
  suffices h : ∀ ops : List Op, (∀ op ∈ ops, op = .access ∨ op = .hasValue) →
      let r := run f (Obj.fresh s) ops
      r.1.log = (List.range (latchCalls f s (accesses ops))).map (callRes f s) ∧
      r.1.opt = firstOk f s (accesses ops) ∧
      r.1.fs = callState f s (latchCalls f s (accesses ops)) ∧
      (firstOk f s (accesses ops) = none → latchCalls f s (accesses ops) = accesses ops) ∧
      ∀ k (hk : k < ops.length), r.2[k]? = some
        (match ops[k] with
        | .hasValue => .flag (firstOk f s (accesses (ops.take k))).isSome
        | _ => match firstOk f s (accesses (ops.take k) + 1) with
          | some a => .value a
          | none => .threw) by
    obtain ⟨h1, h2, _, _, h3⟩ := h ops hops
    exact ⟨h1, h2, h3⟩
  intro ops hops
  induction ops using List.reverseRecOn with
  | nil => exact ⟨rfl, rfl, rfl, fun _ => rfl, fun k hk => by simp at hk⟩
  | append_singleton ops op ih =>
    obtain ⟨h1, h2, h3, h4, h5⟩ := ih (fun op' h' => hops op' (by simp [h']))
    have hlen := run_length f (Obj.fresh s) ops
    rw [run_append]
    set r := run f (Obj.fresh s) ops with hr
    have hold : ∀ k, k < ops.length → (q : Res α) → (r.2 ++ [q])[k]? = r.2[k]? := by
      intro k hk q
      rw [List.getElem?_append_left (by omega)]
    have hLC : latchCalls f s (accesses ops + 1) =
        latchCalls f s (accesses ops) + (if (firstOk f s (accesses ops)).isNone then 1 else 0) := by
      unfold latchCalls
      rw [List.range_succ, List.filter_append, List.length_append]
      congr 1
      simp only [List.filter_cons, List.filter_nil]
      split <;> rfl
    rcases hops op (by simp) with rfl | rfl
    · have hacc : accesses (ops ++ [Op.access]) = accesses ops + 1 := by simp [accesses]
      have hstep : step f r.1 .access = (populate f r.1, deref (populate f r.1)) := rfl
      simp only [hstep]
      rw [hacc]
      cases hv : firstOk f s (accesses ops) with
      | some a =>
        have hpop : populate f r.1 = r.1 := by unfold populate; rw [h2, hv]
        have hfo : firstOk f s (accesses ops + 1) = some a := by rw [firstOk_succ, hv]; rfl
        rw [hpop, hLC, hv]
        refine ⟨h1, by rw [h2, hv, hfo], h3, fun h => (by rw [hfo] at h; cases h), fun k hk => ?_⟩
        rw [List.length_append, List.length_singleton] at hk
        by_cases hk' : k < ops.length
        · rw [hold k hk', h5 k hk']
          simp only [List.getElem_append_left hk', List.take_append_of_le_length (Nat.le_of_lt hk')]
        · have : k = ops.length := by omega
          subst this
          rw [List.getElem?_append_right (by omega), hlen]
          simp [deref, h2, hv, hfo]
      | none =>
        have hlc := h4 hv
        have hpop : populate f r.1 = ⟨callRes f s (accesses ops), callState f s (accesses ops + 1),
            r.1.log ++ [callRes f s (accesses ops)]⟩ := by
          unfold populate
          rw [h2, hv, h3, hlc]; rfl
        have hfo : firstOk f s (accesses ops + 1) = callRes f s (accesses ops) := by rw [firstOk_succ, hv]; rfl
        rw [hpop, hLC, hv, hlc]
        simp only [Option.isNone_none, if_true]
        refine ⟨?_, hfo.symm, trivial, fun _ => trivial, fun k hk => ?_⟩
        · rw [h1, hlc, List.range_succ, List.map_append]; rfl
        rw [List.length_append, List.length_singleton] at hk
        by_cases hk' : k < ops.length
        · rw [hold k hk', h5 k hk']
          simp only [List.getElem_append_left hk', List.take_append_of_le_length (Nat.le_of_lt hk')]
        · have : k = ops.length := by omega
          subst this
          rw [List.getElem?_append_right (by omega), hlen]
          simp [deref, hfo]
          cases callRes f s (accesses ops) <;> rfl
    · have hacc : accesses (ops ++ [Op.hasValue]) = accesses ops := by simp [accesses]
      have hstep : step f r.1 .hasValue = (r.1, .flag r.1.opt.isSome) := rfl
      simp only [hstep]
      rw [hacc]
      refine ⟨h1, h2, h3, h4, fun k hk => ?_⟩
      rw [List.length_append, List.length_singleton] at hk
      by_cases hk' : k < ops.length
      · rw [hold k hk', h5 k hk']
        simp only [List.getElem_append_left hk', List.take_append_of_le_length (Nat.le_of_lt hk')]
      · have : k = ops.length := by omega
        subst this
        rw [List.getElem?_append_right (by omega), hlen]
        simp [h2]

/-- **C45.** If the function does not throw, it is called at most once, at the first access; every access
returns the result of that call; `has_value` is true iff an access happened. -/
theorem C45_latched_once (f : Fn σ α) (s : σ) (a : α) (hf : (f s).1 = some a) (ops : List Op)
    (hops : ∀ op ∈ ops, op = .access ∨ op = .hasValue) :
    let r := run f (Obj.fresh s) ops
    r.1.log = (if Op.access ∈ ops then [some a] else []) ∧
    ∀ k (hk : k < ops.length), r.2[k]? = some
      (match ops[k] with
      | .hasValue => .flag (decide (Op.access ∈ ops.take k))
      | _ => .value a) := by
  obtain ⟨h1, _, h3⟩ := C45_latched f s ops hops
  have hfo : ∀ n, firstOk f s n = if n = 0 then none else some a := by
    intro n
    induction n with
    | zero => rfl
    | succ n ih =>
      rw [firstOk_succ, ih]
      cases n with
      | zero => simp [callRes, callState, hf]
      | succ n => simp
  have hacc : ∀ l : List Op, accesses l = 0 ↔ Op.access ∉ l := fun l => List.count_eq_zero
  refine ⟨?_, fun k hk => ?_⟩
  · show (run f (Obj.fresh s) ops).1.log = _
    rw [h1]
    have hlc : ∀ n, latchCalls f s n = min n 1 := by
      intro n
      unfold latchCalls
      simp only [hfo]
      induction n with
      | zero => rfl
      | succ n ih =>
        rw [List.range_succ, List.filter_append, List.length_append, ih]
        cases n <;> simp
    rw [hlc]
    split
    · rename_i h
      have : accesses ops ≠ 0 := fun h' => (hacc ops).mp h' h
      rw [show min (accesses ops) 1 = 1 by omega]
      simp [callRes, callState, hf]
    · rename_i h
      rw [(hacc ops).mpr h]; rfl
  · show (run f (Obj.fresh s) ops).2[k]? = _
    rw [h3 k hk]
    simp only [hfo]
    congr 1
    cases hop : ops[k] with
    | hasValue =>
      by_cases h : Op.access ∈ ops.take k
      · have : accesses (ops.take k) ≠ 0 := fun h' => (hacc _).mp h' h
        simp [this, h]
      · simp [(hacc _).mpr h, h]
    | _ => simp

/-- Whether a value is present after a history: the last of reset, access and refresh is not a reset. -/
def present (ops : List Op) : Bool :=
  match (ops.filter (· ≠ .hasValue)).getLast? with
  | none | some .reset => false
  | _ => true

/-- The calls of a history: the refreshes and the accesses that find the value absent. -/
def numCalls (ops : List Op) : Nat :=
  ((List.range ops.length).filter (fun i => decide (ops[i]? = some .refresh) ||
    (decide (ops[i]? = some .access) && !present (ops.take i)))).length

theorem present_append (ops : List Op) (op : Op) : present (ops ++ [op]) =
    match op with
    | .hasValue => present ops
    | .reset => false
    | _ => true := by
  unfold present
  cases op <;> simp

theorem numCalls_append (ops : List Op) (op : Op) : numCalls (ops ++ [op]) = numCalls ops +
    (if op = .refresh ∨ (op = .access ∧ present ops = false) then 1 else 0) := by
  unfold numCalls
  rw [List.length_append, List.length_singleton, List.range_succ, List.filter_append, List.length_append]
  congr 1
  · congr 1
    apply List.filter_congr
    intro i hi
    have hi' : i < ops.length := List.mem_range.mp hi
    rw [List.getElem?_append_left hi', List.take_append_of_le_length (Nat.le_of_lt hi')]
  · simp only [List.filter_cons, List.filter_nil, List.getElem?_append_right (Nat.le_refl _), Nat.sub_self,
      List.getElem?_cons_zero, Option.some.injEq, List.take_left']
    by_cases h1 : op = .refresh <;> by_cases h2 : op = .access <;> by_cases h3 : present ops = false <;>
      simp [h1, h2, h3]

/-- **C46.** Over any history of accesses, `has_value`, `reset` and `refresh` with a function that does not
throw: the calls made are the refreshes plus the accesses that find the value absent; each access and
refresh returns the result of the most recent call; `has_value` is false exactly after construction or a
`reset` with no later access or refresh. -/
theorem C46_cached (f : σ → α × σ) (s : σ) (ops : List Op) :
    let g : Fn σ α := fun s => (some (f s).1, (f s).2)
    let r := run g (Obj.fresh s) ops
    r.1.log = (List.range (numCalls ops)).map (callRes g s) ∧
    ∀ k (hk : k < ops.length), r.2[k]? = some
      (match ops[k] with
      | .hasValue => .flag (present (ops.take k))
      | .reset => .unit
      | _ => .value (f (callState g s (numCalls (ops.take (k + 1)) - 1))).1) := by
  intro g
  suffices h : ∀ ops : List Op,
      let r := run g (Obj.fresh s) ops
      r.1.log = (List.range (numCalls ops)).map (callRes g s) ∧
      r.1.fs = callState g s (numCalls ops) ∧
      (r.1.opt = if present ops then some (f (callState g s (numCalls ops - 1))).1 else none) ∧
      (present ops = true → 0 < numCalls ops) ∧
      ∀ k (hk : k < ops.length), r.2[k]? = some
        (match ops[k] with
        | .hasValue => .flag (present (ops.take k))
        | .reset => .unit
        | _ => .value (f (callState g s (numCalls (ops.take (k + 1)) - 1))).1) by
    obtain ⟨h1, _, _, _, h3⟩ := h ops
    exact ⟨h1, h3⟩
  intro ops
  induction ops using List.reverseRecOn with
  | nil => exact ⟨rfl, rfl, rfl, fun h => (by simp [present] at h), fun k hk => by simp at hk⟩
  | append_singleton ops op ih =>
    obtain ⟨h1, h2, h3, h4, h5⟩ := ih
    have hlen := run_length g (Obj.fresh s) ops
    rw [run_append]
    set r := run g (Obj.fresh s) ops with hr
    have hres : ∀ q : Res α, (q = match op with
        | .hasValue => .flag (present ops)
        | .reset => .unit
        | _ => .value (f (callState g s (numCalls (ops ++ [op]) - 1))).1) →
        ∀ k (hk : k < (ops ++ [op]).length), (r.2 ++ [q])[k]? = some
        (match (ops ++ [op])[k] with
        | .hasValue => .flag (present ((ops ++ [op]).take k))
        | .reset => .unit
        | _ => .value (f (callState g s (numCalls ((ops ++ [op]).take (k + 1)) - 1))).1) := by
      intro q hq k hk
      rw [List.length_append, List.length_singleton] at hk
      by_cases hk' : k < ops.length
      · rw [List.getElem?_append_left (by omega), h5 k hk']
        simp only [List.getElem_append_left hk', List.take_append_of_le_length (Nat.le_of_lt hk'),
          List.take_append_of_le_length (Nat.succ_le_of_lt hk')]
      · have : k = ops.length := by omega
        subst this
        have ht : (ops ++ [op]).take (ops.length + 1) = ops ++ [op] := List.take_of_length_le (by simp)
        rw [List.getElem?_append_right (by omega), hlen, ht]
        simp only [Nat.sub_self, List.getElem?_cons_zero, List.getElem_append_right (Nat.le_refl _),
          List.getElem_cons_zero, List.take_left', hq]
    -- a call made now
    have hcall : ∀ o : Obj σ α, o.opt = none → o.fs = callState g s (numCalls ops) → o.log = r.1.log →
        populate g o = ⟨some (f (callState g s (numCalls ops))).1, callState g s (numCalls ops + 1),
          (List.range (numCalls ops + 1)).map (callRes g s)⟩ := by
      intro o ho hfs hlog
      unfold populate
      rw [ho, hfs, hlog, h1, List.range_succ, List.map_append]; rfl
    cases op with
    | hasValue =>
      have hn : numCalls (ops ++ [.hasValue]) = numCalls ops := by rw [numCalls_append]; simp
      have hp : present (ops ++ [.hasValue]) = present ops := present_append _ _
      refine ⟨by rw [hn]; exact h1, by rw [hn]; exact h2, by rw [hn, hp]; exact h3, by rw [hn, hp]; exact h4,
        hres _ ?_⟩
      show Res.flag r.1.opt.isSome = _
      rw [h3]; cases present ops <;> rfl
    | reset =>
      have hn : numCalls (ops ++ [.reset]) = numCalls ops := by rw [numCalls_append]; simp
      have hp : present (ops ++ [.reset]) = false := present_append _ _
      exact ⟨by rw [hn]; exact h1, by rw [hn]; exact h2, by rw [hp]; rfl, fun h => absurd (hp.symm.trans h) Bool.false_ne_true,
        hres _ rfl⟩
    | refresh =>
      have hn : numCalls (ops ++ [.refresh]) = numCalls ops + 1 := by rw [numCalls_append]; simp
      have hp : present (ops ++ [.refresh]) = true := present_append _ _
      have hc := hcall { r.1 with opt := none } rfl h2 rfl
      have hs : step g r.1 .refresh = (populate g { r.1 with opt := none },
        deref (populate g { r.1 with opt := none })) := rfl
      simp only [hs, hc, hn, hp]
      refine ⟨trivial, trivial, by simp, by omega, hres _ ?_⟩
      simp [deref, hn]
    | access =>
      have hp : present (ops ++ [.access]) = true := present_append _ _
      have hs : step g r.1 .access = (populate g r.1, deref (populate g r.1)) := rfl
      cases hpr : present ops with
      | true =>
        have hn : numCalls (ops ++ [.access]) = numCalls ops := by rw [numCalls_append]; simp [hpr]
        rw [hpr] at h3
        have hpop : populate g r.1 = r.1 := by unfold populate; rw [h3]; rfl
        simp only [hs, hpop, hn, hp]
        refine ⟨h1, h2, h3, fun _ => h4 hpr, hres _ ?_⟩
        simp [deref, h3, hn]
      | false =>
        have hn : numCalls (ops ++ [.access]) = numCalls ops + 1 := by rw [numCalls_append]; simp [hpr]
        rw [hpr] at h3
        have hc := hcall r.1 h3 h2 rfl
        simp only [hs, hc, hn, hp]
        refine ⟨trivial, trivial, by simp, by omega, hres _ ?_⟩
        simp [deref, hn]

/-! ### Histories with exceptions

What a user can tell from the calls so far and what they returned. -/

/-- The value held after a transcript: what the last access or refresh returned, nothing if it threw or if a
`reset` came after it. -/
def held (T : List (Op × Res α)) : Option α :=
  match (T.filter (fun e => decide (e.1 ≠ .hasValue))).getLast? with
  | some (.access, .value a) => some a
  | some (.refresh, .value a) => some a
  | _ => none

/-- The calls of the function in a transcript: one for each refresh and for each access with nothing held. -/
def callsMade (T : List (Op × Res α)) : Nat :=
  ((List.range T.length).filter (fun i => match T[i]? with
    | some (Op.refresh, _) => true
    | some (Op.access, _) => (held (T.take i)).isNone
    | _ => false)).length

/-- What a call of the function gives to the caller. -/
def resOf : Option α → Res α
  | some a => .value a
  | none => .threw

/-- What operation `op` gives after a transcript. -/
def expected (f : Fn σ α) (s : σ) (T : List (Op × Res α)) : Op → Res α
  | .hasValue => .flag (held T).isSome
  | .reset => .unit
  | .refresh => resOf (callRes f s (callsMade T))
  | .access => match held T with
    | some a => .value a
    | none => resOf (callRes f s (callsMade T))

theorem held_append (T : List (Op × Res α)) (e : Op × Res α) : held (T ++ [e]) =
    match e with
    | (.hasValue, _) => held T
    | (.access, .value a) => some a
    | (.refresh, .value a) => some a
    | _ => none := by
  obtain ⟨op, r⟩ := e
  unfold held
  cases op <;> cases r <;> simp

theorem callsMade_append (T : List (Op × Res α)) (e : Op × Res α) : callsMade (T ++ [e]) = callsMade T +
    match e.1 with
    | .refresh => 1
    | .access => if (held T).isNone then 1 else 0
    | _ => 0 := by
  obtain ⟨op, r⟩ := e
  unfold callsMade
  rw [List.length_append, List.length_singleton, List.range_succ, List.filter_append, List.length_append]
  congr 1
  · congr 1
    apply List.filter_congr
    intro i hi
    have hi' : i < T.length := List.mem_range.mp hi
    rw [List.getElem?_append_left hi', List.take_append_of_le_length (Nat.le_of_lt hi')]
  · simp only [List.filter_cons, List.filter_nil, List.getElem?_append_right (Nat.le_refl _), Nat.sub_self,
      List.getElem?_cons_zero, List.take_left']
    cases op with
    | access => cases held T <;> simp
    | _ => simp

/-- **C46, with exceptions.** Over any history of accesses, `has_value`, `reset` and `refresh` with any
function: the function is called by each refresh and by each access that finds nothing held, and by nothing
else; such an operation returns the result of its call or throws what the call throws, leaving nothing held;
an access that finds a value held returns that value, which is what the last access or refresh returned;
`has_value` tells whether something is held. -/
theorem C46_cached_throwing (f : Fn σ α) (s : σ) (ops : List Op) :
    let r := run f (Obj.fresh s) ops
    let T := ops.zip r.2
    r.1.log = (List.range (callsMade T)).map (callRes f s) ∧ r.1.opt = held T ∧
    ∀ k (hk : k < ops.length), r.2[k]? = some (expected f s (T.take k) ops[k]) := by
  suffices h : ∀ ops : List Op,
      let r := run f (Obj.fresh s) ops
      let T := ops.zip r.2
      r.1.log = (List.range (callsMade T)).map (callRes f s) ∧ r.1.opt = held T ∧
      r.1.fs = callState f s (callsMade T) ∧
      ∀ k (hk : k < ops.length), r.2[k]? = some (expected f s (T.take k) ops[k]) by
    obtain ⟨h1, h2, _, h3⟩ := h ops
    exact ⟨h1, h2, h3⟩
  intro ops
  induction ops using List.reverseRecOn with
  | nil => exact ⟨rfl, rfl, rfl, fun k hk => by simp at hk⟩
  | append_singleton ops op ih =>
    obtain ⟨h1, h2, h3, h5⟩ := ih
    have hlen := run_length f (Obj.fresh s) ops
    rw [run_append]
    set r := run f (Obj.fresh s) ops with hr
    set T := ops.zip r.2 with hT
    have hTl : T.length = ops.length := by rw [hT, List.length_zip, hlen, Nat.min_self]
    have hzip : ∀ q : Res α, (ops ++ [op]).zip (r.2 ++ [q]) = T ++ [(op, q)] := by
      intro q
      rw [List.zip_append hlen.symm]; rfl
    have hres : ∀ q : Res α, q = expected f s T op →
        ∀ k (hk : k < (ops ++ [op]).length), (r.2 ++ [q])[k]? = some (expected f s ((T ++ [(op, q)]).take k) ((ops ++ [op])[k])) := by
      intro q hq k hk
      rw [List.length_append, List.length_singleton] at hk
      by_cases hk' : k < ops.length
      · rw [List.getElem?_append_left (by omega), h5 k hk']
        simp only [List.getElem_append_left hk', List.take_append_of_le_length (show k ≤ T.length by omega)]
      · have : k = ops.length := by omega
        subst this
        have ht : (T ++ [(op, q)]).take ops.length = T := by rw [← hTl, List.take_left']; rfl
        rw [List.getElem?_append_right (by omega), hlen, ht]
        simp only [Nat.sub_self, List.getElem?_cons_zero, List.getElem_append_right (Nat.le_refl _),
          List.getElem_cons_zero, hq]
    -- a call made now
    have hcall : ∀ o : Obj σ α, o.opt = none → o.fs = r.1.fs → o.log = r.1.log →
        populate f o = ⟨callRes f s (callsMade T), callState f s (callsMade T + 1),
          (List.range (callsMade T + 1)).map (callRes f s)⟩ := by
      intro o ho hfs hlog
      unfold populate
      rw [ho, hfs, hlog, h1, h3, List.range_succ, List.map_append]; rfl
    have hderef : ∀ (x : Option α) (a : σ) (l : List (Option α)), deref ⟨x, a, l⟩ = resOf x := by
      intro x a l; cases x <;> rfl
    cases op with
    | hasValue =>
      simp only [step, hzip]
      refine ⟨?_, ?_, ?_, hres _ (by rw [h2]; rfl)⟩
      · rw [callsMade_append]; exact h1
      · rw [held_append]; exact h2
      · rw [callsMade_append]; exact h3
    | reset =>
      simp only [step, hzip]
      refine ⟨?_, ?_, ?_, hres _ rfl⟩
      · rw [callsMade_append]; exact h1
      · rw [held_append]
      · rw [callsMade_append]; exact h3
    | refresh =>
      have hc := hcall { r.1 with opt := none } rfl rfl rfl
      simp only [step, hzip, hc, hderef]
      refine ⟨?_, ?_, ?_, hres _ rfl⟩
      · rw [callsMade_append]
      · rw [held_append]; cases callRes f s (callsMade T) <;> rfl
      · rw [callsMade_append]
    | access =>
      cases hh : held T with
      | some a =>
        have hpop : populate f r.1 = r.1 := by unfold populate; rw [h2, hh]
        have hd : deref r.1 = .value a := by unfold deref; rw [h2, hh]
        simp only [step, hzip, hpop, hd]
        refine ⟨?_, ?_, ?_, hres _ (by simp [expected, hh])⟩
        · rw [callsMade_append]; simp only [hh]; exact h1
        · rw [held_append, h2, hh]
        · rw [callsMade_append]; simp only [hh]; exact h3
      | none =>
        have hc := hcall r.1 (by rw [h2, hh]) rfl rfl
        simp only [step, hzip, hc, hderef]
        refine ⟨?_, ?_, ?_, hres _ (by simp [expected, hh])⟩
        · rw [callsMade_append]; simp [hh]
        · rw [held_append]; cases callRes f s (callsMade T) <;> rfl
        · rw [callsMade_append]; simp [hh]

/-- A counter as the function: two accesses, a reset, an access, a refresh. -/
example : (run (fun n : Nat => (some n, n + 1)) (Obj.fresh 7) [.hasValue, .access, .access, .reset, .access, .refresh]).2 =
    [.flag false, .value 7, .value 7, .unit, .value 8, .value 9] := by decide
/-- A function that throws the first time. -/
example : (run (fun n : Nat => (if n = 0 then none else some n, n + 1)) (Obj.fresh 0) [.access, .hasValue, .access, .access]).2 =
    [.threw, .flag false, .value 1, .value 1] := by decide
/-- A refresh that throws leaves nothing behind; the next access calls again. -/
example : (run (fun n : Nat => (if n = 1 then none else some n, n + 1)) (Obj.fresh 0)
    [.access, .refresh, .hasValue, .access, .access]).2 = [.value 0, .threw, .flag false, .value 2, .value 2] := by decide

end Verif.Cached
