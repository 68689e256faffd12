import Verif.Functional.Spec

/-!
# Properties of `with_result_of` (C108) and the function objects (C109)
-/

namespace Verif.Functional

/-- The operation initialises a value of the result type. -/
def Op.isConvert {τ : Type} : Op τ → Bool
  | .convert _ _ => true
  | _ => false

/-- The operation initialises a value of a type with a constructor for anything. -/
def Op.isGreedy {τ : Type} : Op τ → Bool
  | .greedy _ => true
  | _ => false

theorem calls_of_convert {τ σ α : Type} {F : Callable τ σ α} {c : Bool} {t : τ} {s : σ} {r : Option α} {t' : τ} {s' : σ}
    (h : (if c then convertConst F t s else convertMut F t s) = some (r, t', s')) : Spec.Calls F c t s r t' s' := by
  cases c
  · simp only [Bool.false_eq_true, if_false, convertMut] at h
    cases hm : F.onMut with
    | some g =>
      rw [hm] at h; simp only [Option.some.injEq] at h
      exact Or.inl ⟨rfl, g, hm, h⟩
    | none =>
      rw [hm] at h; simp only at h
      cases hc : F.onConst with
      | some g =>
        rw [hc] at h; simp only [Option.some.injEq, Prod.mk.injEq] at h
        exact Or.inr ⟨Or.inr hm, g, hc, by rw [← h.1, ← h.2.2], h.2.1.symm⟩
      | none => rw [hc] at h; simp at h
  · simp only [if_true, convertConst] at h
    cases hc : F.onConst with
    | some g =>
      rw [hc] at h; simp only [Option.some.injEq, Prod.mk.injEq] at h
      exact Or.inr ⟨Or.inl rfl, g, hc, by rw [← h.1, ← h.2.2], h.2.1.symm⟩
    | none => rw [hc] at h; simp at h

/-- C108 (what is missing: wrappers that initialise a value of a type with a constructor for anything, callables that
are not of a class type that can be a base, and constant wrappers of callables with a non-constant call operator;
see the theorems below).  A program with wrappers does what the same program does that calls plain function
objects where the wrappers are converted and nowhere else: the results, the members of each function object and the
outside are the same, and so is the number of calls, which is the number of conversions. -/
theorem C108_with_result_of_partial {τ σ α : Type} (F : Callable τ σ α) (ops : List (Op τ))
    (hg : ∀ op ∈ ops, op.isGreedy = false) (m : Nat → τ) (y z : Sys τ σ) (rs : List (Made τ α))
    (hm : ∀ i (h : i < y.ws.length), m i = y.ws[i]) (h : run F y ops = some (z, rs)) :
    ∃ m' k, Spec.Plain F y.ws.length m y.ext ops rs m' z.ext k ∧ (∀ i (h : i < z.ws.length), m' i = z.ws[i]) ∧
      z.calls = y.calls + k ∧ k = ops.countP Op.isConvert := by
  induction ops generalizing m y rs with
  | nil =>
    simp only [run, Option.some.injEq, Prod.mk.injEq] at h
    obtain ⟨rfl, rfl⟩ := h
    exact ⟨m, 0, .done, hm, rfl, rfl⟩
  | cons op ops ih =>
    have hg' : ∀ op ∈ ops, op.isGreedy = false := fun o ho => hg o (List.mem_cons_of_mem _ ho)
    have push : ∀ (w : τ) i (h : i < (y.ws ++ [w]).length),
        (if i = y.ws.length then w else m i) = (y.ws ++ [w])[i] := by
      intro w i hi
      split
      · next e => subst e; simp
      · next e =>
        have : i < y.ws.length := by simp at hi; omega
        rw [List.getElem_append_left this]; exact hm i this
    simp only [run] at h
    cases hs : step F y op with
    | none => rw [hs] at h; simp at h
    | some p =>
      obtain ⟨y', r⟩ := p
      rw [hs] at h; simp only at h
      cases hr : run F y' ops with
      | none => rw [hr] at h; simp at h
      | some q =>
        obtain ⟨z', rs'⟩ := q
        rw [hr] at h
        simp only [Option.some.injEq, Prod.mk.injEq] at h
        obtain ⟨rfl, rfl⟩ := h
        cases op with
        | wrap t =>
          simp only [step, wrap] at hs
          cases hk : F.kind <;> rw [hk] at hs <;> simp at hs
          obtain ⟨rfl, rfl⟩ := hs
          obtain ⟨m', k, h1, h2, h3, h4⟩ := ih hg' _ _ _ (push t) hr
          rw [List.length_append] at h1
          exact ⟨m', k, .wrap h1, h2, h3, by simpa [Op.isConvert] using h4⟩
        | copy i =>
          simp only [step] at hs
          cases hw : y.ws[i]? with
          | none => rw [hw] at hs; simp at hs
          | some w =>
            rw [hw] at hs; simp at hs
            obtain ⟨rfl, rfl⟩ := hs
            obtain ⟨hi, hwi⟩ := List.getElem?_eq_some_iff.1 hw
            obtain ⟨m', k, h1, h2, h3, h4⟩ := ih hg' _ _ _ (push w) hr
            rw [List.length_append] at h1
            refine ⟨m', k, .copy hi ?_, h2, h3, by simpa [Op.isConvert] using h4⟩
            rw [hm i hi, hwi]; exact h1
        | pass i =>
          simp only [step] at hs
          cases hw : y.ws[i]? with
          | none => rw [hw] at hs; simp at hs
          | some w =>
            rw [hw] at hs; simp at hs
            obtain ⟨rfl, rfl⟩ := hs
            obtain ⟨hi, hwi⟩ := List.getElem?_eq_some_iff.1 hw
            obtain ⟨m', k, h1, h2, h3, h4⟩ := ih hg' _ _ _ hm hr
            exact ⟨m', k, .pass hi h1, h2, h3, by simpa [Op.isConvert] using h4⟩
        | convert i c =>
          simp only [step] at hs
          cases hw : y.ws[i]? with
          | none => rw [hw] at hs; simp at hs
          | some w =>
            rw [hw] at hs; simp only at hs
            obtain ⟨hi, hwi⟩ := List.getElem?_eq_some_iff.1 hw
            cases hc : (if c then convertConst F w y.ext else convertMut F w y.ext) with
            | none => rw [hc] at hs; simp at hs
            | some p =>
              obtain ⟨v, w', s'⟩ := p
              rw [hc] at hs; simp only [Option.some.injEq, Prod.mk.injEq] at hs
              obtain ⟨rfl, rfl⟩ := hs
              have hcall := calls_of_convert hc
              rw [← hwi, ← hm i hi] at hcall
              have hset : ∀ j (h : j < (y.ws.set i w').length),
                  (if j = i then w' else m j) = (y.ws.set i w')[j] := by
                intro j hj
                rw [List.getElem_set]
                by_cases e : j = i
                · subst e; simp
                · have e' : i ≠ j := fun h => e h.symm
                  simp only [e, e', if_false]
                  exact hm j (by simpa using hj)
              obtain ⟨m', k, h1, h2, h3, h4⟩ := ih hg' _ _ _ hset hr
              rw [List.length_set] at h1
              refine ⟨m', k + 1, ?_, h2, by rw [h3]; show y.calls + 1 + k = y.calls + (k + 1); omega, by rw [List.countP_cons, ← h4]; rfl⟩
              cases v with
              | none => exact .throws hi hcall h1
              | some a => exact .call hi hcall h1
        | greedy i => have := hg (.greedy i) (List.mem_cons_self ..); simp [Op.isGreedy] at this

/-- A counter: a mutable lambda with a member, which also writes a log outside itself. -/
def counter : Callable Nat (List Nat) Nat :=
  ⟨.cls, some (fun t s => (some (100 + t), (100 + t) :: s)), some (fun t s => (some t, t + 1, t :: s))⟩

/-- A copy made after one conversion goes on from there, and the two do not share their members. -/
example : ∃ z rs, run counter ⟨[], [], 0⟩ [.wrap 5, .pass 0, .convert 0 false, .copy 0, .convert 0 false,
    .convert 1 false, .convert 1 true] = some (z, rs) ∧ z.calls = 4 ∧ z.ws = [7, 7] ∧ z.ext = [107, 6, 6, 5] :=
  ⟨_, _, rfl, rfl, rfl, rfl⟩

/-- C108, one wrapper used by one function: wrapping and passing on call nothing, and a wrapper that is never converted
is never called. -/
theorem C108_unused_never_called {τ σ α : Type} (F : Callable τ σ α) (ops : List (Op τ)) (y z : Sys τ σ)
    (rs : List (Made τ α)) (hc : ∀ op ∈ ops, op.isConvert = false) (h : run F y ops = some (z, rs)) :
    z.calls = y.calls ∧ z.ext = y.ext := by
  induction ops generalizing y rs with
  | nil => simp only [run, Option.some.injEq, Prod.mk.injEq] at h; rw [h.1]; exact ⟨rfl, rfl⟩
  | cons op ops ih =>
    simp only [run] at h
    cases hs : step F y op with
    | none => rw [hs] at h; simp at h
    | some p =>
      obtain ⟨y', r⟩ := p
      rw [hs] at h; simp only at h
      cases hr : run F y' ops with
      | none => rw [hr] at h; simp at h
      | some q =>
        obtain ⟨z', rs'⟩ := q
        rw [hr] at h
        simp only [Option.some.injEq, Prod.mk.injEq] at h
        obtain ⟨rfl, rfl⟩ := h
        obtain ⟨h1, h2⟩ := ih y' rs' (fun o ho => hc o (List.mem_cons_of_mem _ ho)) hr
        rw [h1, h2]
        cases op with
        | wrap t =>
          simp only [step] at hs
          split at hs <;> simp at hs
          rw [← hs.1]; exact ⟨rfl, rfl⟩
        | copy i =>
          simp only [step] at hs
          split at hs <;> simp at hs
          rw [← hs.1]; exact ⟨rfl, rfl⟩
        | pass i =>
          simp only [step] at hs
          split at hs <;> simp at hs
          rw [← hs.1]; exact ⟨rfl, rfl⟩
        | greedy i =>
          simp only [step] at hs
          split at hs <;> simp at hs
          rw [← hs.1]; exact ⟨rfl, rfl⟩
        | convert i c => have := hc (.convert i c) (List.mem_cons_self ..); simp [Op.isConvert] at this

example : ∃ z rs, run counter ⟨[], [3], 0⟩ [.wrap 5, .pass 0, .copy 0, .greedy 1] = some (z, rs) ∧ z.calls = 0 :=
  ⟨_, _, rfl, rfl⟩

/-- C108: every callable of a class type that can be a base class and that has a call operator for the object at hand
can be wrapped and converted: the program compiles. -/
theorem C108_accepts_iff {τ σ α : Type} (F : Callable τ σ α) (t : τ) (s : σ) (c : Bool) :
    (run F ⟨[], s, 0⟩ [.wrap t, .convert 0 c]).isSome = true ↔
      F.kind = .cls ∧ (F.onConst.isSome = true ∨ c = false ∧ F.onMut.isSome = true) := by
  cases hk : F.kind <;> cases c <;> cases hc : F.onConst <;> cases hm : F.onMut <;>
    simp [run, step, wrap, hk, convertConst, convertMut, hc, hm]

example : counter.kind = .cls ∧ (counter.onConst.isSome = true ∨ true = false ∧ counter.onMut.isSome = true) := by
  simp [counter]

/-- C108: "wraps a callable" is not true of every callable: a pointer to a function, as in the example of
docs/functional.adoc (`with_result_of{make_S}`), or an object of a `final` class does not compile. -/
theorem C108_pointers_rejected_fails {τ σ α : Type} (F : Callable τ σ α) (t : τ) (h : F.kind ≠ .cls) (y : Sys τ σ)
    (ops : List (Op τ)) : run F y (.wrap t :: ops) = none := by
  cases hk : F.kind with
  | cls => exact absurd hk h
  | finalCls => simp [run, step, wrap, hk]
  | pointer => simp [run, step, wrap, hk]

example : ({ counter with kind := .pointer } : Callable Nat (List Nat) Nat).kind ≠ .cls := by simp

/-- C108: a constant wrapper (such as the one inside `latched`) of a callable whose only call operator changes its
members, such as a mutable lambda, cannot be converted. -/
theorem C108_constant_mutable_rejected_fails {τ σ α : Type} (F : Callable τ σ α) (h : F.onConst = none) (y : Sys τ σ)
    (i : Nat) (ops : List (Op τ)) : run F y (.convert i true :: ops) = none := by
  simp only [run, step]
  cases hw : y.ws[i]? <;> simp [convertConst, h]

example : ({ counter with onConst := none } : Callable Nat (List Nat) Nat).onConst = none := rfl

/-- C108: where a value of a type with a constructor for anything is initialised, no call is made at all: the value
holds the wrapper instead of the result, whatever the callable returns.  So `latched` and `cached` with a function that
returns such a type (`std::any`) never call it. -/
theorem C108_constructor_for_anything_violated {τ σ α : Type} (F : Callable τ σ α) (t : τ) (s : σ)
    (hk : F.kind = .cls) :
    ∃ z rs, run F ⟨[], s, 0⟩ [.wrap t, .greedy 0] = some (z, rs) ∧ z.calls = 0 ∧ rs = [.nothing, .wrapped t] ∧
      ∀ a, rs[1]? ≠ some (Made.value a) := by
  refine ⟨⟨[t], s, 0⟩, [.nothing, .wrapped t], ?_, rfl, rfl, by simp⟩
  simp [run, step, wrap, hk]

example : counter.kind = .cls := rfl

/-! ## C109 -/

/-- C109: what `safe_identity` returns can be read after the full-expression and is the argument's value; for an lvalue
it is the argument itself, and nothing is copied, moved or changed; for an rvalue no object other than the argument
is changed. -/
theorem C109_safe_identity {α : Type} (S : Special α) (st st' : List (Cell α)) (x : Arg) (r : Ret α) (c : Cell α)
    (hx : st[x.obj]? = some c) (ha : c.alive = true) (h : safeIdentity S st x = some (r, st')) :
    readRet (endFull x st') r = .ok c.val ∧ (x.cat = .lvalue → r = .ref x.obj ∧ st' = st) ∧
      (∀ j, j ≠ x.obj → st'[j]? = st[j]?) ∧ (x.cat ≠ .lvalue → ∀ j, r ≠ .ref j) := by
  unfold safeIdentity at h
  rw [hx] at h
  simp only at h
  cases hc : x.cat with
  | lvalue =>
    rw [hc] at h
    simp only [Option.some.injEq, Prod.mk.injEq] at h
    obtain ⟨rfl, rfl⟩ := h
    refine ⟨?_, fun _ => ⟨rfl, rfl⟩, fun _ _ => rfl, by simp⟩
    simp [endFull, hc, readRet, hx, ha]
  | xvalue =>
    rw [hc] at h
    simp only at h
    cases hf : fromRvalue S x.const c.val with
    | none => rw [hf] at h; simp at h
    | some p =>
      obtain ⟨a, l⟩ := p
      rw [hf] at h
      simp only [Option.some.injEq, Prod.mk.injEq] at h
      obtain ⟨rfl, rfl⟩ := h
      have : a = c.val := by
        unfold fromRvalue at hf
        split at hf
        · simp at hf; exact hf.1.symm
        · split at hf <;> simp at hf; exact hf.1.symm
      subst this
      exact ⟨rfl, by simp, fun j hj => by rw [List.getElem?_set_ne (Ne.symm hj)], by simp⟩
  | prvalue =>
    rw [hc] at h
    simp only at h
    cases hf : fromRvalue S x.const c.val with
    | none => rw [hf] at h; simp at h
    | some p =>
      obtain ⟨a, l⟩ := p
      rw [hf] at h
      simp only [Option.some.injEq, Prod.mk.injEq] at h
      obtain ⟨rfl, rfl⟩ := h
      have : a = c.val := by
        unfold fromRvalue at hf
        split at hf
        · simp at hf; exact hf.1.symm
        · split at hf <;> simp at hf; exact hf.1.symm
      subst this
      exact ⟨rfl, by simp, fun j hj => by rw [List.getElem?_set_ne (Ne.symm hj)], by simp⟩

/-- A move-only type whose moved-from objects hold zero. -/
def moveOnly : Special Nat := ⟨false, some (fun _ => 0)⟩

/-- A temporary. -/
example : ∃ r st', safeIdentity moveOnly [⟨4, true⟩, ⟨17, true⟩] ⟨.prvalue, false, 1⟩ = some (r, st') ∧
    readRet (endFull ⟨.prvalue, false, 1⟩ st') r = .ok 17 := ⟨_, _, rfl, rfl⟩

/-- C109: which arguments `safe_identity` takes: every lvalue, and the rvalues from which an object can be made. -/
theorem C109_safe_identity_accepts_iff {α : Type} (S : Special α) (st : List (Cell α)) (x : Arg)
    (hx : x.obj < st.length) :
    (safeIdentity S st x).isSome = true ↔
      x.cat = .lvalue ∨ S.copyable = true ∨ (x.const = false ∧ S.move.isSome = true) := by
  unfold safeIdentity fromRvalue
  rw [List.getElem?_eq_getElem hx]
  cases x.cat <;> cases x.const <;> cases S.move <;> cases S.copyable <;> simp

example : (⟨.prvalue, false, 1⟩ : Arg).obj < ([⟨4, true⟩, ⟨17, true⟩] : List (Cell Nat)).length := by decide

/-- C109: "a call to `safe_identity` returns its argument unchanged" is not true of every argument: a temporary of a type
that can be neither copied nor moved does not compile. -/
theorem C109_immovable_rejected_fails {α : Type} (S : Special α) (hS : S.copyable = false ∧ S.move = none)
    (st : List (Cell α)) (x : Arg) (hx : x.cat ≠ .lvalue) : safeIdentity S st x = none := by
  unfold safeIdentity fromRvalue
  rw [hS.1, hS.2]
  cases h : x.cat
  · exact absurd h hx
  all_goals
    cases st[x.obj]? <;> simp

example : (⟨false, none⟩ : Special Nat).copyable = false ∧ (⟨false, none⟩ : Special Nat).move = none := ⟨rfl, rfl⟩

/-- C109: an xvalue that is not constant is moved from: the argument holds then what the move constructor leaves. -/
theorem C109_safe_identity_moves {α : Type} (S : Special α) (f : α → α) (hS : S.move = some f) (st : List (Cell α))
    (c : Cell α) (i : Nat) (hx : st[i]? = some c) :
    ∃ st', safeIdentity S st ⟨.xvalue, false, i⟩ = some (.val c.val, st') ∧ st'[i]? = some ⟨f c.val, c.alive⟩ := by
  obtain ⟨hi, hci⟩ := List.getElem?_eq_some_iff.1 hx
  refine ⟨st.set i ⟨f c.val, c.alive⟩, ?_, by simp [hi]⟩
  simp [safeIdentity, hx, fromRvalue, hS]

example : moveOnly.move = some (fun _ => 0) := rfl

/-- The values of an integer type. -/
def IntTy.Holds (T : IntTy) (v : Int) : Prop :=
  if T.signed then -(2 ^ (T.bits - 1) : Int) ≤ v ∧ v < 2 ^ (T.bits - 1) else 0 ≤ v ∧ v < 2 ^ T.bits

theorem holds_promoted {T : IntTy} (hb : 0 < T.bits) {v : Int} (h : T.Holds v) : T.promoted.Holds v := by
  unfold IntTy.promoted
  split
  · next hlt =>
    unfold IntTy.Holds at h ⊢
    simp only [IntTy.int, if_true]
    have h1 : (2 : Int) ^ (T.bits - 1) ≤ 2 ^ 31 := by
      exact_mod_cast Nat.pow_le_pow_right (by decide : 0 < 2) (by omega : T.bits - 1 ≤ 31)
    have h2 : (2 : Int) ^ T.bits ≤ 2 ^ 31 := by
      exact_mod_cast Nat.pow_le_pow_right (by decide : 0 < 2) (by omega : T.bits ≤ 31)
    have e : (2 : Int) ^ (32 - 1) = 2147483648 := by decide
    have e' : (2 : Int) ^ 31 = 2147483648 := by decide
    rw [e'] at h1 h2
    rw [e]
    cases hs : T.signed <;> rw [hs] at h <;> simp at h <;> omega
  · exact h

/-- C109: `unary_plus` never changes the value of an integer, and its result is a value of its type: that of the
argument, or `int` for a narrower one; `unary_plus<>` takes every integer type and `unary_plus<T>` exactly `T`. -/
theorem C109_unary_plus (T : Option IntTy) (U : IntTy) (hU : 0 < U.bits) (u : Int) (hu : U.Holds u) :
    (unaryPlus T U u).isSome = decide (T = none ∨ T = some U) ∧
    ∀ R v, unaryPlus T U u = some (R, v) → v = u ∧ R.Holds v ∧ R = (if 32 ≤ U.bits then U else ⟨true, 32⟩) := by
  have key : ∀ R v, (some (U.promoted, u) : Option (IntTy × Int)) = some (R, v) → v = u ∧ R.Holds v ∧
      R = (if 32 ≤ U.bits then U else ⟨true, 32⟩) := by
    intro R v h
    simp only [Option.some.injEq, Prod.mk.injEq] at h
    obtain ⟨rfl, rfl⟩ := h
    refine ⟨rfl, holds_promoted hU hu, ?_⟩
    unfold IntTy.promoted IntTy.int
    split <;> split <;> first | rfl | omega
  cases T with
  | none => exact ⟨by simp [unaryPlus], fun R v h => key R v h⟩
  | some T =>
    unfold unaryPlus
    by_cases e : T = U
    · subst e; exact ⟨by simp, fun R v h => key R v (by simpa using h)⟩
    · refine ⟨by simp [e], fun R v h => by simp [e] at h⟩

/-- `unary_plus<>{}` of a `short` is an `int`. -/
example : (⟨true, 16⟩ : IntTy).Holds (-5) ∧ unaryPlus none ⟨true, 16⟩ (-5) = some (⟨true, 32⟩, -5) := by
  refine ⟨?_, rfl⟩
  unfold IntTy.Holds; decide

/-- C109: `unary_plus<T>` is not "like `std::negate`" in what it takes and returns: `std::negate<T>` converts its argument
to `T` and returns a `T`, whereas `unary_plus<T>` takes no other type, and returns an `int` if `T` is narrower. -/
theorem C109_unlike_negate_fails (T U : IntTy) (u : Int) :
    (T ≠ U → unaryPlus (some T) U u = none) ∧
    (T.bits < 32 → unaryPlus (some T) T u = some (⟨true, 32⟩, u) ∧ (⟨true, 32⟩ : IntTy) ≠ T) := by
  refine ⟨fun h => by simp [unaryPlus, h], fun h => ⟨by simp [unaryPlus, IntTy.promoted, h, IntTy.int], ?_⟩⟩
  intro e; rw [← e] at h; simp at h

example : (⟨true, 16⟩ : IntTy) ≠ .int ∧ (⟨true, 16⟩ : IntTy).bits < 32 := by decide

/-- C109: `dereference` of a pointer is the object pointed to: reading the result reads that object, and is undefined if it
is gone; `dereference<>` takes every pointer and `dereference<T *>` exactly the pointers to `T`. -/
theorem C109_dereference {α : Type} (T : Option Nat) (U p : Nat) (st : List (Cell α)) :
    (dereference (α := α) T U p).isSome = decide (T = none ∨ T = some U) ∧
    ∀ r, dereference T U p = some r → r = .ref p ∧
      ∀ a, readRet st r = .ok a ↔ ∃ c, st[p]? = some c ∧ c.alive = true ∧ c.val = a := by
  have key : ∀ a, readRet st (.ref p) = .ok a ↔ ∃ c, st[p]? = some c ∧ c.alive = true ∧ c.val = a := by
    intro a
    unfold readRet
    cases h : st[p]? with
    | none => simp [h]
    | some c => cases hc : c.alive <;> simp [h, hc]
  cases T with
  | none =>
    refine ⟨by simp [dereference], fun r h => ?_⟩
    simp only [dereference, Option.some.injEq] at h
    subst h; exact ⟨rfl, key⟩
  | some T =>
    unfold dereference
    by_cases e : T = U
    · subst e
      refine ⟨by simp, fun r h => ?_⟩
      simp only [if_true, Option.some.injEq] at h
      subst h; exact ⟨rfl, key⟩
    · exact ⟨by simp [e], fun r h => by simp [e] at h⟩

example : readRet [⟨(28 : Nat), true⟩] (.ref 0) = .ok 28 := rfl

end Verif.Functional
