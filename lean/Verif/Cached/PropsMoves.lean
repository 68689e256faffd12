import Verif.Cached.Moves
import Verif.Cached.PropsCopies

/-!
# Moves of `latched` and `cached` objects (C124)
-/

namespace Verif.Cached

variable {σ α : Type}

/-- The operation with the move replaced by a copy. -/
def MOp.asCopy : MOp → POp
  | .base op => op
  | .move i => .copy i
  | .moveAssign i j => .assign i j

/-- `st` with another value at `i`. -/
def upd (st : Nat → Bool) (i : Nat) (b : Bool) : Nat → Bool := fun k => if k = i then b else st k

/-- The history, from `n` objects of which those in `st` have been moved from, accesses no object that was moved from, or is a copy of such an
object, before it has been reset, refreshed or assigned. -/
def Careful : (Nat → Bool) → Nat → List MOp → Prop
  | _, _, [] => True
  | st, n, .base .make :: ops => Careful (upd st n false) (n + 1) ops
  | st, n, .base (.copy i) :: ops => Careful (upd st n (st i)) (n + 1) ops
  | st, n, .base (.assign i j) :: ops => Careful (upd st i (st j)) n ops
  | st, n, .base (.call i op) :: ops =>
    match op with
    | .hasValue => Careful st n ops
    | .access => st i = false ∧ Careful st n ops
    | .reset | .refresh => Careful (upd st i false) n ops
  | st, n, .move i :: ops => Careful (upd (upd st n (st i)) i true) (n + 1) ops
  | st, n, .moveAssign i j :: ops => Careful (upd (upd st i (st j)) j true) n ops

/-- Objects that are the same, except that those in `st` may hold other values. -/
structure Same (st : Nat → Bool) (P Q : Pool σ α) : Prop where
  fs : P.fs = Q.fs
  log : P.log = Q.log
  len : P.objs.length = Q.objs.length
  holds : ∀ i : Nat, (P.objs[i]?).map Option.isSome = (Q.objs[i]?).map Option.isSome
  eq : ∀ i : Nat, st i = false → P.objs[i]? = Q.objs[i]?

theorem Same.set {st st' : Nat → Bool} {P Q : Pool σ α} (h : Same st P Q) {i : Nat} {a b : Option α} {s : σ} {l : List (Option α)}
    (hs : a.isSome = b.isSome) (he : st' i = false → a = b) (ho : ∀ k, k ≠ i → st' k = false → st k = false) :
    Same st' ⟨P.objs.set i a, s, l⟩ ⟨Q.objs.set i b, s, l⟩ := by
  refine ⟨rfl, rfl, by simp [h.len], fun k => ?_, fun k hk => ?_⟩
  · simp only [List.getElem?_set, h.len]
    by_cases e : i = k
    · subst e; by_cases hl : i < Q.objs.length <;> simp [hl, hs]
    · simp only [if_neg e]; exact h.holds k
  · simp only [List.getElem?_set, h.len]
    by_cases e : i = k
    · subst e; by_cases hl : i < Q.objs.length <;> simp [hl, he hk]
    · simp only [if_neg e]; exact h.eq k (ho k (fun e' => e e'.symm) hk)

theorem Same.push {st st' : Nat → Bool} {P Q : Pool σ α} (h : Same st P Q) {a b : Option α} {s : σ} {l : List (Option α)}
    (hs : a.isSome = b.isSome) (he : st' Q.objs.length = false → a = b) (ho : ∀ k, k < Q.objs.length → st' k = false → st k = false) :
    Same st' ⟨P.objs ++ [a], s, l⟩ ⟨Q.objs ++ [b], s, l⟩ := by
  refine ⟨rfl, rfl, by simp [h.len], fun k => ?_, fun k hk => ?_⟩
  · simp only [List.getElem?_append, h.len]
    by_cases hl : k < Q.objs.length
    · simp only [if_pos hl]; exact h.holds k
    · simp only [if_neg hl]
      rcases Nat.eq_zero_or_pos (k - Q.objs.length) with e | e
      · simp [e, hs]
      · simp [List.getElem?_eq_none (show [a].length ≤ k - Q.objs.length by simp only [List.length_singleton]; exact e),
          List.getElem?_eq_none (show [b].length ≤ k - Q.objs.length by simp only [List.length_singleton]; exact e)]
  · simp only [List.getElem?_append, h.len]
    by_cases hl : k < Q.objs.length
    · simp only [if_pos hl]; exact h.eq k (ho k hl hk)
    · simp only [if_neg hl]
      rcases Nat.eq_zero_or_pos (k - Q.objs.length) with e | e
      · have : k = Q.objs.length := by omega
        subst this
        simp [he hk]
      · simp [List.getElem?_eq_none (show [a].length ≤ k - Q.objs.length by simp only [List.length_singleton]; exact e),
          List.getElem?_eq_none (show [b].length ≤ k - Q.objs.length by simp only [List.length_singleton]; exact e)]

/-- Both objects exist or neither does. -/
theorem Same.get {st : Nat → Bool} {P Q : Pool σ α} (h : Same st P Q) (i : Nat) :
    (P.objs[i]? = none ∧ Q.objs[i]? = none) ∨
    ∃ a b, P.objs[i]? = some a ∧ Q.objs[i]? = some b ∧ a.isSome = b.isSome ∧ (st i = false → a = b) ∧ i < Q.objs.length := by
  have h1 := h.holds i
  have h2 := h.eq i
  cases hp : P.objs[i]? with
  | none => rw [hp] at h1; left; exact ⟨rfl, by simpa using h1.symm⟩
  | some a =>
    cases hq : Q.objs[i]? with
    | none => rw [hp, hq] at h1; simp at h1
    | some b =>
      rw [hp, hq] at h1 h2
      exact .inr ⟨a, b, rfl, rfl, by simpa using h1, fun e => by simpa using h2 e, (List.getElem?_eq_some_iff.1 hq).1⟩

theorem set_same {l : List (Option α)} {k : Nat} {o : Option α} (h : l[k]? = some o) : l.set k o = l := by
  obtain ⟨hl, e⟩ := List.getElem?_eq_some_iff.1 h
  rw [← e]; exact List.set_getElem_self hl

theorem careful_run (f : Fn σ α) (moved : α → α) : ∀ (ops : List MOp) (st : Nat → Bool) (P Q : Pool σ α), Same st P Q →
    Careful st Q.objs.length ops →
    (mrun f moved P ops = .ub ∧ prun f Q (ops.map MOp.asCopy) = .ub) ∨
    ∃ P' Q' rs st', mrun f moved P ops = .ok (P', rs) ∧ prun f Q (ops.map MOp.asCopy) = .ok (Q', rs) ∧ Same st' P' Q'
  | [], st, P, Q, h, _ => .inr ⟨P, Q, [], st, rfl, rfl, h⟩
  | op :: ops, st, P, Q, h, hc => by
    have next : ∀ (P1 Q1 : Pool σ α) (r : Res α) (st1 : Nat → Bool), mstep f moved P op = .ok (P1, r) →
        pstep f Q op.asCopy = .ok (Q1, r) → Same st1 P1 Q1 → Careful st1 Q1.objs.length ops →
        (mrun f moved P (op :: ops) = .ub ∧ prun f Q ((op :: ops).map MOp.asCopy) = .ub) ∨
        ∃ P' Q' rs st', mrun f moved P (op :: ops) = .ok (P', rs) ∧
          prun f Q ((op :: ops).map MOp.asCopy) = .ok (Q', rs) ∧ Same st' P' Q' := by
      intro P1 Q1 r st1 e1 e2 h1 hc1
      rcases careful_run f moved ops st1 P1 Q1 h1 hc1 with ⟨a, b⟩ | ⟨P', Q', rs, st', a, b, c⟩
      · left; simp [mrun, prun, e1, e2, a, b]
      · right; exact ⟨P', Q', r :: rs, st', by simp [mrun, e1, a], by simp [prun, e2, b], c⟩
    have stop : mstep f moved P op = .ub → pstep f Q op.asCopy = .ub →
        (mrun f moved P (op :: ops) = .ub ∧ prun f Q ((op :: ops).map MOp.asCopy) = .ub) ∨
        ∃ P' Q' rs st', mrun f moved P (op :: ops) = .ok (P', rs) ∧
          prun f Q ((op :: ops).map MOp.asCopy) = .ok (Q', rs) ∧ Same st' P' Q' := by
      intro e1 e2
      left; simp [mrun, prun, e1, e2]
    have hfs := h.fs
    have hlog := h.log
    match op, hc with
    | .base .make, hc =>
      refine next _ _ .unit (upd st Q.objs.length false) rfl rfl ?_ (by simpa [Careful] using hc)
      rw [hfs, hlog]
      exact h.push rfl (fun _ => rfl) (fun k hk e => by simpa [upd, Nat.ne_of_lt hk] using e)
    | .base (.copy i), hc =>
      rcases h.get i with ⟨hp, hq⟩ | ⟨a, b, hp, hq, hs, he, _⟩
      · exact stop (by simp [mstep, pstep, hp]) (by simp [MOp.asCopy, pstep, hq])
      · refine next _ _ .unit (upd st Q.objs.length (st i)) (by simp only [mstep, pstep, hp]; rfl) (by simp only [MOp.asCopy, pstep, hq]; rfl) ?_ (by simpa [Careful] using hc)
        rw [hfs, hlog]
        exact h.push hs (fun e => he (by simpa [upd] using e)) (fun k hk e => by simpa [upd, Nat.ne_of_lt hk] using e)
    | .base (.assign i j), hc =>
      rcases h.get i with ⟨hp, hq⟩ | ⟨a, b, hp, hq, hs, he, _⟩
      · exact stop (by simp [mstep, pstep, hp]) (by simp [MOp.asCopy, pstep, hq])
      rcases h.get j with ⟨hp', hq'⟩ | ⟨a', b', hp', hq', hs', he', _⟩
      · exact stop (by simp [mstep, pstep, hp, hp']) (by simp [MOp.asCopy, pstep, hq, hq'])
      · refine next _ _ .unit (upd st i (st j)) (by simp only [mstep, pstep, hp, hp']; rfl) (by simp only [MOp.asCopy, pstep, hq, hq']; rfl) ?_ (by simpa [Careful] using hc)
        rw [hfs, hlog]
        exact h.set hs' (fun e => he' (by simpa [upd] using e)) (fun k hk e => by simpa [upd, hk] using e)
    | .base (.call i op), hc =>
      rcases h.get i with ⟨hp, hq⟩ | ⟨a, b, hp, hq, hs, he, _⟩
      · exact stop (by simp [mstep, pstep, hp]) (by simp [MOp.asCopy, pstep, hq])
      cases op with
      | hasValue =>
        refine next _ _ (.flag b.isSome) st (by simp only [mstep, pstep, hp, step, hs]; rfl) (by simp only [MOp.asCopy, pstep, hq, step]; rfl) ?_ (by simpa [Careful] using hc)
        simp only [hfs, hlog]
        exact h.set hs he (fun k _ e => e)
      | access =>
        simp only [Careful] at hc
        obtain ⟨h0, hc⟩ := hc
        have := he h0
        subst this
        refine next _ _ _ st (by simp only [mstep, pstep, hp]; rfl) (by simp only [MOp.asCopy, pstep, hq, hfs, hlog]; rfl) ?_ (by simpa [Careful] using hc)
        simp only [hfs, hlog]
        exact h.set rfl (fun _ => rfl) (fun k _ e => e)
      | reset =>
        refine next _ _ .unit (upd st i false) (by simp only [mstep, pstep, hp, step]; rfl) (by simp only [MOp.asCopy, pstep, hq, step]; rfl) ?_ (by simpa [Careful] using hc)
        simp only [hfs, hlog]
        exact h.set rfl (fun _ => rfl) (fun k hk e => by simpa [upd, hk] using e)
      | refresh =>
        refine next ⟨P.objs.set i (populate f ⟨none, Q.fs, Q.log⟩).opt, (populate f ⟨none, Q.fs, Q.log⟩).fs, (populate f ⟨none, Q.fs, Q.log⟩).log⟩
          ⟨Q.objs.set i (populate f ⟨none, Q.fs, Q.log⟩).opt, (populate f ⟨none, Q.fs, Q.log⟩).fs, (populate f ⟨none, Q.fs, Q.log⟩).log⟩
          (deref (populate f ⟨none, Q.fs, Q.log⟩)) (upd st i false) (by simp only [mstep, pstep, hp, step, hfs, hlog])
          (by simp only [MOp.asCopy, pstep, hq, step]) ?_ (by simpa [Careful] using hc)
        exact h.set rfl (fun _ => rfl) (fun k hk e => by simpa [upd, hk] using e)
    | .move i, hc =>
      rcases h.get i with ⟨hp, hq⟩ | ⟨a, b, hp, hq, hs, he, hlt⟩
      · exact stop (by simp [mstep, hp]) (by simp [MOp.asCopy, pstep, hq])
      · refine next _ _ .unit (upd (upd st Q.objs.length (st i)) i true) (by simp only [mstep, hp]; rfl) (by simp only [MOp.asCopy, pstep, hq]; rfl) ?_ (by simpa [Careful] using hc)
        have h1 : Same (upd st i true) ⟨P.objs.set i (a.map moved), P.fs, P.log⟩ ⟨Q.objs.set i b, P.fs, P.log⟩ :=
          h.set (by simpa using hs) (fun e => by simp [upd] at e) (fun k hk e => by simpa [upd, hk] using e)
        have hsame : Q.objs.set i b = Q.objs := by
          exact set_same hq
        rw [hsame] at h1
        have h2 := h1.push (a := a) (b := b) (s := P.fs) (l := P.log) (st' := upd (upd st Q.objs.length (st i)) i true) hs
          (fun e => he (by simpa [upd, Nat.ne_of_gt hlt] using e))
          (fun k hk e => by
            have hk : k ≠ Q.objs.length := Nat.ne_of_lt hk
            simpa [upd, hk] using e)
        rw [hfs, hlog] at h2 ⊢
        exact h2
    | .moveAssign i j, hc =>
      rcases h.get i with ⟨hp, hq⟩ | ⟨a, b, hp, hq, hs, he, _⟩
      · exact stop (by simp [mstep, hp]) (by simp [MOp.asCopy, pstep, hq])
      rcases h.get j with ⟨hp', hq'⟩ | ⟨a', b', hp', hq', hs', he', _⟩
      · exact stop (by simp [mstep, hp, hp']) (by simp [MOp.asCopy, pstep, hq, hq'])
      · refine next _ _ .unit (upd (upd st i (st j)) j true) (by simp only [mstep, hp, hp']; rfl) (by simp only [MOp.asCopy, pstep, hq, hq']; rfl) ?_ (by simpa [Careful] using hc)
        have h1 : Same (upd st i (st j)) ⟨P.objs.set i a', P.fs, P.log⟩ ⟨Q.objs.set i b', P.fs, P.log⟩ :=
          h.set hs' (fun e => he' (by simpa [upd] using e)) (fun k hk e => by simpa [upd, hk] using e)
        have hsame : (Q.objs.set i b').set j b' = Q.objs.set i b' := by
          have hj : (Q.objs.set i b')[j]? = some b' := by
            rw [List.getElem?_set]
            by_cases e : i = j
            · subst e; simp [(List.getElem?_eq_some_iff.1 hq').1]
            · simp [e, hq']
          exact set_same hj
        have h2 := h1.set (i := j) (a := a'.map moved) (b := b') (s := P.fs) (l := P.log) (st' := upd (upd st i (st j)) j true)
          (by simpa using hs') (fun e => by simp [upd] at e) (fun k hk e => by simpa [upd, hk] using e)
        simp only [hsame] at h2
        rw [hfs, hlog] at h2 ⊢
        exact h2

/-- **C124, partial.** Whatever is left of values that are moved from: in every history of any number of objects in which an object that was
moved from (or a copy of it) is not accessed before it has been reset, refreshed or assigned, moves do what copies do. All
operations return the same, and the function is called as often and with the same results, so C103 says what they are. -/
theorem C124_moves_partial (f : Fn σ α) (moved : α → α) (s : σ) (ops : List MOp) (hc : Careful (fun _ => false) 0 ops) :
    (mrun f moved ⟨[], s, []⟩ ops = .ub ∧ prun f ⟨[], s, []⟩ (ops.map MOp.asCopy) = .ub) ∨
    ∃ P Q rs, mrun f moved ⟨[], s, []⟩ ops = .ok (P, rs) ∧ prun f ⟨[], s, []⟩ (ops.map MOp.asCopy) = .ok (Q, rs) ∧
      P.log = Q.log ∧ P.fs = Q.fs := by
  rcases careful_run f moved ops (fun _ => false) ⟨[], s, []⟩ ⟨[], s, []⟩ ⟨rfl, rfl, rfl, fun _ => rfl, fun _ _ => rfl⟩ hc with h | h
  · exact .inl h
  · obtain ⟨P, Q, rs, st, a, b, c⟩ := h
    exact .inr ⟨P, Q, rs, a, b, c.log, c.fs⟩

/-- **C124, values that moves leave alone.** If moving from a value does not change it, moves do what copies do in every history. -/
theorem C124_trivial_moves (f : Fn σ α) (s : σ) (ops : List MOp) :
    mrun f id ⟨[], s, []⟩ ops = prun f ⟨[], s, []⟩ (ops.map MOp.asCopy) := by
  have : ∀ (ops : List MOp) (P : Pool σ α), mrun f id P ops = prun f P (ops.map MOp.asCopy) := by
    intro ops
    induction ops with
    | nil => intro P; rfl
    | cons op ops ih =>
      intro P
      have hs : mstep f id P op = pstep f P op.asCopy := by
        cases op with
        | base op => rfl
        | move i =>
          cases hp : P.objs[i]? with
          | none => simp [mstep, MOp.asCopy, pstep, hp]
          | some o =>
            obtain ⟨hl, e⟩ := List.getElem?_eq_some_iff.1 hp
            have : P.objs.set i o = P.objs := by rw [← e]; exact List.set_getElem_self hl
            simp [mstep, MOp.asCopy, pstep, hp, this]
        | moveAssign i j =>
          cases hp : P.objs[i]? with
          | none => simp [mstep, MOp.asCopy, pstep, hp]
          | some a =>
            cases hq : P.objs[j]? with
            | none => simp [mstep, MOp.asCopy, pstep, hp, hq]
            | some o =>
              have hj : (P.objs.set i o)[j]? = some o := by
                rw [List.getElem?_set]
                by_cases e : i = j
                · subst e; simp [(List.getElem?_eq_some_iff.1 hq).1]
                · simp [e, hq]
              have : (P.objs.set i o).set j o = P.objs.set i o := set_same hj
              simp [mstep, MOp.asCopy, pstep, hp, hq, this]
      simp only [mrun, List.map_cons, prun, hs, ih]
  exact this ops _

/-- **C124 does not hold in general.** After every history: if an object that holds `a` is moved from, it still has a value. Every access
to it gives what the move has left of `a`, and the function is not called, while the new object gives `a`. -/
theorem C124_moved_from_violated (f : Fn σ α) (moved : α → α) (s : σ) (ops : List MOp) (P : Pool σ α) (rs : List (Res α))
    (h : mrun f moved ⟨[], s, []⟩ ops = .ok (P, rs)) (i : Nat) (a : α) (hi : P.objs[i]? = some (some a)) :
    ∃ P', mstep f moved P (.move i) = .ok (P', .unit) ∧ P'.log = P.log ∧
      mstep f moved P' (.base (.call i .hasValue)) = .ok (P', .flag true) ∧
      mstep f moved P' (.base (.call i .access)) = .ok (P', .value (moved a)) ∧
      mstep f moved P' (.base (.call P.objs.length .access)) = .ok (P', .value a) := by
  have hlt := (List.getElem?_eq_some_iff.1 hi).1
  have g1 : (P.objs.set i (some (moved a)) ++ [some a])[i]? = some (some (moved a)) := by
    rw [List.getElem?_append_left (by simpa using hlt), List.getElem?_set]; simp [hlt]
  have g2 : (P.objs.set i (some (moved a)) ++ [some a])[P.objs.length]? = some (some a) := by
    rw [List.getElem?_append_right (by simp)]; simp
  refine ⟨⟨P.objs.set i (some (moved a)) ++ [some a], P.fs, P.log⟩, by simp [mstep, hi], rfl, ?_, ?_, ?_⟩
  · simp only [mstep, pstep, g1, step, set_same g1]; rfl
  · simp only [mstep, pstep, g1, step, populate, deref, set_same g1]
  · simp only [mstep, pstep, g2, step, populate, deref, set_same g2]

/-! ## Cases that meet the hypotheses -/

/-- Moved from after an access, asked for a value, refreshed and accessed; the new object accessed. -/
example : Careful (fun _ => false) 0 [.base .make, .base (.call 0 .access), .move 0, .base (.call 0 .hasValue), .base (.call 1 .access),
    .base (.call 0 .refresh), .base (.call 0 .access), .moveAssign 1 0] := by
  simp [Careful, upd]

/-- Values that moves empty, as of strings: the moved-from object gives the empty string. -/
example : (mrun (fun n : Nat => (some "value", n + 1)) (fun _ => "") ⟨[], 0, []⟩
    [.base .make, .base (.call 0 .access), .move 0, .base (.call 0 .access), .base (.call 1 .access)] >>= fun r => .ok (r.2, r.1.fs)) =
    .ok ([.unit, .value "value", .unit, .value "", .value "value"], 1) := by decide

end Verif.Cached
