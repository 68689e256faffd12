import Verif.Cached.Copies
import Verif.Cached.Props

/-!
# Copies of `latched` and `cached` objects (C103)
-/

namespace Verif.Cached

variable {σ α : Type}

/-! ## The history of each object -/

/-- A member function called on an object or on one it was copied from, and when (its place in the history of all objects). -/
abbrev Entry : Type := Nat × Op

/-- What the `n`-th operation adds to the histories of the objects. A copy takes over the history of what it is a copy of. -/
def extend (ls : List (List Entry)) (n : Nat) : POp → List (List Entry)
  | .make => ls ++ [[]]
  | .copy i => ls ++ (ls[i]?).toList
  | .assign i j => ls.set i (ls[j]?.getD [])
  | .call i op => ls.set i (ls[i]?.getD [] ++ [(n, op)])

/-- The histories of the objects. -/
def histories : List POp → List (List Entry)
  | h => (h.foldl (fun (s : List (List Entry) × Nat) op => (extend s.1 s.2 op, s.2 + 1)) ([], 0)).1

/-- Not a `reset` or `refresh`. -/
def keeps (e : Entry) : Bool := e.2 == .access || e.2 == .hasValue

/-- When the value an object holds was computed, by its history: at the last `refresh` if no `reset` follows, otherwise at the
first access after the last `reset`. -/
def computedAt (L : List Entry) : Option Nat :=
  match (L.filter fun e => !keeps e).getLast? with
  | some (n, .refresh) => some n
  | _ => ((L.reverse.takeWhile keeps).reverse.find? (·.2 == .access)).map (·.1)

/-- Whether the `n`-th operation calls the function: a refresh, or an access to an object without value. -/
def computes (h : List POp) (n : Nat) : Bool :=
  match h[n]? with
  | some (.call _ .refresh) => true
  | some (.call i .access) => ((histories (h.take n))[i]?.bind computedAt).isNone
  | _ => false

/-- How often the function has been called before the `n`-th operation. -/
def callsBefore (h : List POp) (n : Nat) : Nat := ((List.range n).filter (computes h)).length

/-! ## Facts about the specification -/

theorem computedAt_snoc (L : List Entry) (n : Nat) (op : Op) : computedAt (L ++ [(n, op)]) =
    match op with
    | .hasValue => computedAt L
    | .access => (computedAt L).or (some n)
    | .reset => none
    | .refresh => some n := by
  have hk : keeps (n, op) = true → (L ++ [(n, op)]).filter (fun e => !keeps e) = L.filter (fun e => !keeps e) ∧
      ((L ++ [(n, op)]).reverse.takeWhile keeps).reverse = (L.reverse.takeWhile keeps).reverse ++ [(n, op)] := by
    intro h
    constructor
    · simp [List.filter_append, h]
    · rw [List.reverse_append, List.reverse_singleton, List.singleton_append, List.takeWhile_cons_of_pos h, List.reverse_cons]
  have hd : keeps (n, op) = false → ((L ++ [(n, op)]).filter (fun e => !keeps e)).getLast? = some (n, op) ∧
      ((L ++ [(n, op)]).reverse.takeWhile keeps).reverse = [] := by
    intro h
    constructor
    · simp [List.filter_append, h]
    · rw [List.reverse_append, List.reverse_singleton, List.singleton_append, List.takeWhile_cons_of_neg (by simp [h])]
      rfl
  cases op with
  | hasValue =>
    obtain ⟨h1, h2⟩ := hk rfl
    unfold computedAt
    rw [h1, h2]
    simp
  | access =>
    obtain ⟨h1, h2⟩ := hk rfl
    unfold computedAt
    rw [h1, h2]
    generalize (L.filter fun e => !keeps e).getLast? = x
    generalize (L.reverse.takeWhile keeps).reverse = M
    have hM : ((M ++ [(n, Op.access)]).find? (·.2 == .access)).map (·.1) =
        ((M.find? (·.2 == .access)).map (·.1)).or (some n) := by
      rw [List.find?_append]
      cases M.find? (·.2 == .access) <;> simp
    rcases x with _ | ⟨m, op⟩
    · exact hM
    · cases op <;> first | exact hM | rfl
  | reset =>
    obtain ⟨h1, h2⟩ := hd rfl
    unfold computedAt
    rw [h1, h2]
    rfl
  | refresh =>
    obtain ⟨h1, h2⟩ := hd rfl
    unfold computedAt
    rw [h1]

theorem histories_snoc (h : List POp) (op : POp) : histories (h ++ [op]) = extend (histories h) h.length op := by
  have hn : ∀ (h : List POp) (s : List (List Entry) × Nat),
      (h.foldl (fun (s : List (List Entry) × Nat) op => (extend s.1 s.2 op, s.2 + 1)) s).2 = s.2 + h.length := by
    intro h
    induction h with
    | nil => intro s; rfl
    | cons p h ih => intro s; simp only [List.foldl_cons, ih, List.length_cons]; omega
  simp only [histories, List.foldl_append, List.foldl_cons, List.foldl_nil, hn, Nat.zero_add]

theorem computes_append (h : List POp) (op : POp) (n : Nat) (hn : n < h.length) : computes (h ++ [op]) n = computes h n := by
  unfold computes
  rw [List.getElem?_append_left hn, List.take_append_of_le_length (Nat.le_of_lt hn)]

theorem callsBefore_append (h : List POp) (op : POp) (n : Nat) (hn : n ≤ h.length) :
    callsBefore (h ++ [op]) n = callsBefore h n := by
  unfold callsBefore
  congr 1
  apply List.filter_congr
  intro i hi
  exact computes_append h op i (by have := List.mem_range.mp hi; omega)

theorem callsBefore_snoc (h : List POp) (op : POp) : callsBefore (h ++ [op]) (h ++ [op]).length =
    callsBefore h h.length + (if computes (h ++ [op]) h.length then 1 else 0) := by
  rw [List.length_append, List.length_singleton]
  conv_lhs => unfold callsBefore
  rw [List.range_succ, List.filter_append, List.length_append]
  congr 1
  · exact callsBefore_append h op h.length (Nat.le_refl _)
  · simp only [List.filter_cons, List.filter_nil]
    split <;> rfl

theorem prun_snoc (f : Fn σ α) (P : Pool σ α) (h : List POp) (op : POp) : prun f P (h ++ [op]) = (do
    let r ← prun f P h
    let q ← pstep f r.1 op
    return (q.1, r.2 ++ [q.2])) := by
  induction h generalizing P with
  | nil =>
    simp only [List.nil_append, prun, Outcome.ok_bind]
  | cons p h ih =>
    simp only [List.cons_append, prun, ih]
    cases pstep f P p with
    | ok r =>
      simp only [Outcome.ok_bind]
      cases prun f r.1 h with
      | ok q =>
        simp only [Outcome.ok_bind, Outcome.pure_eq_ok]
        cases pstep f q.1 op <;> rfl
      | ub => rfl
      | panic => rfl
    | ub => rfl
    | panic => rfl

/-! ## The theorem -/

/-- What an object with this history holds: the result of the call made when its value was computed. -/
def holds (f : σ → α × σ) (s : σ) (h : List POp) (L : List Entry) : Option α :=
  (computedAt L).map fun n => (f (callState (fun s => (some (f s).1, (f s).2)) s (callsBefore h n))).1

/-- **C103.** For a function that does not throw and every history of constructions, copies, copy assignments, accesses, `has_value`, `reset`
and `refresh` of any number of objects that share the function: the function is called exactly at the refreshes and at the accesses to
objects without a value, and every object, copies included, behaves by its own history alone. It holds the result of the call made at
its last refresh, or at the first access after its last reset, where the history of a copy begins with that of what it was copied from. -/
theorem C103_copies (f : σ → α × σ) (s : σ) (h : List POp) (P : Pool σ α) (rs : List (Res α)) :
    let g : Fn σ α := fun s => (some (f s).1, (f s).2)
    prun g ⟨[], s, []⟩ h = .ok (P, rs) →
    P.objs = (histories h).map (holds f s h) ∧
    P.log = (List.range (callsBefore h h.length)).map (callRes g s) ∧
    ∀ n i op, h[n]? = some (.call i op) → ∃ L, (histories (h.take (n + 1)))[i]? = some L ∧
      (op = .hasValue → rs[n]? = some (.flag (computedAt L).isSome)) ∧
      (op = .reset → rs[n]? = some .unit) ∧
      (op = .access ∨ op = .refresh → ∃ v, holds f s h L = some v ∧ rs[n]? = some (.value v)) := by
  intro g hrun
  suffices key : P.objs = (histories h).map (holds f s h) ∧
      P.log = (List.range (callsBefore h h.length)).map (callRes g s) ∧
      P.fs = callState g s (callsBefore h h.length) ∧ rs.length = h.length ∧
      (∀ L ∈ histories h, ∀ n, computedAt L = some n → n < h.length) ∧
      ∀ n i op, h[n]? = some (.call i op) → ∃ L, (histories (h.take (n + 1)))[i]? = some L ∧
        (∀ m, computedAt L = some m → m < h.length) ∧
        (op = .hasValue → rs[n]? = some (.flag (computedAt L).isSome)) ∧
        (op = .reset → rs[n]? = some .unit) ∧
        (op = .access ∨ op = .refresh → ∃ v, holds f s h L = some v ∧ rs[n]? = some (.value v)) by
    obtain ⟨h1, h2, _, _, _, h3⟩ := key
    refine ⟨h1, h2, fun n i op hn => ?_⟩
    obtain ⟨L, a, _, b⟩ := h3 n i op hn
    exact ⟨L, a, b⟩
  induction h using List.reverseRecOn generalizing P rs with
  | nil =>
    simp only [prun, Outcome.ok.injEq, Prod.mk.injEq] at hrun
    obtain ⟨rfl, rfl⟩ := hrun
    refine ⟨rfl, rfl, rfl, rfl, ?_, ?_⟩
    · intro L hL; cases hL
    · intro n i op hn; simp at hn
  | append_singleton h op ih =>
    rw [prun_snoc] at hrun
    obtain ⟨⟨Q, qs⟩, hq, hrun⟩ := Outcome.bind_eq_ok.mp hrun
    obtain ⟨⟨R, x⟩, hx, hrun⟩ := Outcome.bind_eq_ok.mp hrun
    simp only [Outcome.pure_eq_ok, Outcome.ok.injEq, Prod.mk.injEq] at hrun
    obtain ⟨rfl, rfl⟩ := hrun
    obtain ⟨h1, h2, h3, h4, h5, h6⟩ := ih Q qs hq
    dsimp only at hx
    -- what does not change
    have hold : ∀ L, (∀ n, computedAt L = some n → n < h.length) → holds f s (h ++ [op]) L = holds f s h L := by
      intro L hL
      unfold holds
      cases hc : computedAt L with
      | none => rfl
      | some n => simp only [Option.map_some, callsBefore_append h op n (Nat.le_of_lt (hL n hc))]
    have hmap : (histories h).map (holds f s (h ++ [op])) = Q.objs := by
      rw [h1]
      exact List.map_congr_left fun L hL => hold L (h5 L hL)
    have hold6 : ∀ n i o, n < h.length → (h ++ [op])[n]? = some (.call i o) →
        ∃ L, (histories ((h ++ [op]).take (n + 1)))[i]? = some L ∧
        (∀ m, computedAt L = some m → m < (h ++ [op]).length) ∧
        (o = .hasValue → (qs ++ [x])[n]? = some (.flag (computedAt L).isSome)) ∧
        (o = .reset → (qs ++ [x])[n]? = some .unit) ∧
        (o = .access ∨ o = .refresh → ∃ v, holds f s (h ++ [op]) L = some v ∧ (qs ++ [x])[n]? = some (.value v)) := by
      intro n i o hn hno
      rw [List.getElem?_append_left hn] at hno
      obtain ⟨L, a, b, c⟩ := h6 n i o hno
      refine ⟨L, ?_, ?_, ?_⟩
      · rw [List.take_append_of_le_length (by omega)]; exact a
      · intro m hm; have := b m hm; simp; omega
      · rw [List.getElem?_append_left (by omega), hold L b]; exact c
    have hget : ∀ (i : Nat) (o : Option α), Q.objs[i]? = some o → ∃ L, (histories h)[i]? = some L ∧ holds f s h L = o ∧
        ∀ n, computedAt L = some n → n < h.length := by
      intro i o hi
      rw [h1, List.getElem?_map] at hi
      cases hL : (histories h)[i]? with
      | none => rw [hL] at hi; cases hi
      | some L =>
        rw [hL] at hi
        exact ⟨L, rfl, by simpa using hi, h5 L (List.mem_of_getElem? hL)⟩
    have hlast : (h ++ [op])[h.length]? = some op := by simp
    have hlen : (qs ++ [x]).length = (h ++ [op]).length := by simp [h4]
    -- the three operations that call nothing
    have quiet : (∀ i o, op ≠ .call i o) → R.log = Q.log → R.fs = Q.fs →
        R.objs = (histories (h ++ [op])).map (holds f s (h ++ [op])) →
        (∀ L ∈ histories (h ++ [op]), L = [] ∨ L ∈ histories h) →
        R.objs = (histories (h ++ [op])).map (holds f s (h ++ [op])) ∧
        R.log = (List.range (callsBefore (h ++ [op]) (h ++ [op]).length)).map (callRes g s) ∧
        R.fs = callState g s (callsBefore (h ++ [op]) (h ++ [op]).length) ∧ (qs ++ [x]).length = (h ++ [op]).length ∧
        (∀ L ∈ histories (h ++ [op]), ∀ n, computedAt L = some n → n < (h ++ [op]).length) ∧
        ∀ n i o, (h ++ [op])[n]? = some (.call i o) → ∃ L, (histories ((h ++ [op]).take (n + 1)))[i]? = some L ∧
        (∀ m, computedAt L = some m → m < (h ++ [op]).length) ∧
        (o = .hasValue → (qs ++ [x])[n]? = some (.flag (computedAt L).isSome)) ∧
        (o = .reset → (qs ++ [x])[n]? = some .unit) ∧
        (o = .access ∨ o = .refresh → ∃ v, holds f s (h ++ [op]) L = some v ∧ (qs ++ [x])[n]? = some (.value v)) := by
      intro hop hlog hfs hobjs hls
      have hc : computes (h ++ [op]) h.length = false := by
        unfold computes
        rw [hlast]
        cases op with
        | call i o => exact absurd rfl (hop i o)
        | _ => rfl
      rw [callsBefore_snoc, hc, hlog, hfs]
      refine ⟨hobjs, by simpa using h2, by simpa using h3, hlen, ?_, ?_⟩
      · intro L hL n hn
        rcases hls L hL with rfl | hL
        · cases hn
        · have := h5 L hL n hn; simp; omega
      · intro n i o hno
        by_cases hn : n < h.length
        · exact hold6 n i o hn hno
        · have hn' : n < (h ++ [op]).length := by
            rw [List.getElem?_eq_some_iff] at hno
            exact hno.1
          have : n = h.length := by simp at hn'; omega
          subst this
          rw [hlast] at hno
          exact absurd (Option.some.inj hno) (hop i o)
    cases op with
    | make =>
      simp only [pstep, Outcome.ok.injEq, Prod.mk.injEq] at hx
      obtain ⟨rfl, rfl⟩ := hx
      have hh : histories (h ++ [.make]) = histories h ++ [[]] := histories_snoc h .make
      refine quiet (fun _ _ e => by cases e) rfl rfl ?_ ?_
      · rw [hh, List.map_append, hmap]; rfl
      · rw [hh]; intro L hL; simp at hL; tauto
    | copy i =>
      simp only [pstep] at hx
      cases hi : Q.objs[i]? with
      | none => rw [hi] at hx; cases hx
      | some o =>
        rw [hi] at hx
        simp only [Outcome.ok.injEq, Prod.mk.injEq] at hx
        obtain ⟨rfl, rfl⟩ := hx
        obtain ⟨L, hL, hLo, hLn⟩ := hget i o hi
        have hh : histories (h ++ [.copy i]) = histories h ++ [L] := by
          rw [histories_snoc, extend, hL]; rfl
        refine quiet (fun _ _ e => by cases e) rfl rfl ?_ ?_
        · rw [hh, List.map_append, hmap, List.map_singleton, hold L hLn, hLo]
        · rw [hh]; intro M hM
          simp at hM
          rcases hM with hM | rfl
          · exact .inr hM
          · exact .inr (List.mem_of_getElem? hL)
    | assign i j =>
      simp only [pstep] at hx
      cases hi : Q.objs[i]? with
      | none => rw [hi] at hx; cases hx
      | some o =>
        cases hj : Q.objs[j]? with
        | none => rw [hi, hj] at hx; cases hx
        | some o' =>
          rw [hi, hj] at hx
          simp only [Outcome.ok.injEq, Prod.mk.injEq] at hx
          obtain ⟨rfl, rfl⟩ := hx
          obtain ⟨L, hL, hLo, hLn⟩ := hget j o' hj
          have hh : histories (h ++ [.assign i j]) = (histories h).set i L := by
            rw [histories_snoc, extend, hL]; rfl
          refine quiet (fun _ _ e => by cases e) rfl rfl ?_ ?_
          · rw [hh, List.map_set, hmap, hold L hLn, hLo]
          · rw [hh]; intro M hM
            rcases List.mem_or_eq_of_mem_set hM with hM | rfl
            · exact .inr hM
            · exact .inr (List.mem_of_getElem? hL)
    | call i o =>
      simp only [pstep] at hx
      cases hi : Q.objs[i]? with
      | none => rw [hi] at hx; cases hx
      | some b =>
        rw [hi] at hx
        simp only [Outcome.ok.injEq, Prod.mk.injEq] at hx
        obtain ⟨rfl, rfl⟩ := hx
        obtain ⟨L, hL, hLo, hLn⟩ := hget i b hi
        have hil : i < (histories h).length := (List.getElem?_eq_some_iff.mp hL).1
        have hh : histories (h ++ [POp.call i o]) = (histories h).set i (L ++ [(h.length, o)]) := by
          rw [histories_snoc, extend, hL]; rfl
        have hself : callsBefore (h ++ [POp.call i o]) h.length = callsBefore h h.length :=
          callsBefore_append h _ _ (Nat.le_refl _)
        have hb : b = none ↔ computedAt L = none := by
          rw [← hLo]; unfold holds; simp
        -- what the step does
        have hstep : (step g ⟨b, Q.fs, Q.log⟩ o).1.opt = holds f s (h ++ [POp.call i o]) (L ++ [(h.length, o)]) ∧
            (step g ⟨b, Q.fs, Q.log⟩ o).1.log =
              (List.range (callsBefore (h ++ [POp.call i o]) (h ++ [POp.call i o]).length)).map (callRes g s) ∧
            (step g ⟨b, Q.fs, Q.log⟩ o).1.fs = callState g s (callsBefore (h ++ [POp.call i o]) (h ++ [POp.call i o]).length) ∧
            (o = .hasValue → (step g ⟨b, Q.fs, Q.log⟩ o).2 = .flag (computedAt (L ++ [(h.length, o)])).isSome) ∧
            (o = .reset → (step g ⟨b, Q.fs, Q.log⟩ o).2 = .unit) ∧
            (o = .access ∨ o = .refresh → ∃ v, holds f s (h ++ [POp.call i o]) (L ++ [(h.length, o)]) = some v ∧
              (step g ⟨b, Q.fs, Q.log⟩ o).2 = .value v) := by
          have hcall : ∀ c : σ → Option α, (List.range (callsBefore h h.length + 1)).map (callRes g s) =
              Q.log ++ [some (f Q.fs).1] := by
            intro _
            rw [List.range_succ, List.map_append, ← h2, h3]; rfl
          have hcall := hcall fun _ => none
          have hst : callState g s (callsBefore h h.length + 1) = (f Q.fs).2 := by
            rw [h3]; rfl
          have hcomp : computes (h ++ [POp.call i o]) h.length = match o with
              | .refresh => true
              | .access => (computedAt L).isNone
              | _ => false := by
            unfold computes
            rw [hlast]
            cases o <;> simp [hL]
          rw [callsBefore_snoc, hcomp]
          have hnew : holds f s (h ++ [POp.call i o]) [(h.length, .refresh)] = some (f Q.fs).1 := by
            unfold holds
            rw [show computedAt [(h.length, Op.refresh)] = some h.length from rfl, Option.map_some, hself, h3]
          have hnew' : ∀ M, computedAt M = some h.length → holds f s (h ++ [POp.call i o]) M = some (f Q.fs).1 := by
            intro M hM
            rw [← hnew]; unfold holds; rw [hM]; rfl
          have hsame : ∀ M, computedAt M = computedAt L → holds f s (h ++ [POp.call i o]) M = b := by
            intro M hM
            rw [← hLo, ← hold L hLn]; unfold holds; rw [hM]
          cases o with
          | hasValue =>
            have hc := computedAt_snoc L h.length .hasValue
            refine ⟨(hsame _ hc).symm, h2, h3, fun _ => ?_, (by simp), (by simp)⟩
            show Res.flag b.isSome = _
            rw [hc]
            cases hL' : computedAt L with
            | none => rw [hb.mpr hL']; rfl
            | some n =>
              cases b with
              | none => rw [hb.mp rfl] at hL'; cases hL'
              | some _ => rfl
          | reset =>
            have hc := computedAt_snoc L h.length .reset
            refine ⟨?_, h2, h3, (by simp), fun _ => rfl, (by simp)⟩
            show none = _
            unfold holds
            rw [hc]; rfl
          | refresh =>
            have hc := computedAt_snoc L h.length .refresh
            refine ⟨(hnew' _ hc).symm, hcall.symm, hst.symm, (by simp), (by simp), fun _ => ⟨_, hnew' _ hc, rfl⟩⟩
          | access =>
            have hc := computedAt_snoc L h.length .access
            cases hL' : computedAt L with
            | none =>
              rw [hL'] at hc
              have hbn := hb.mpr hL'
              subst hbn
              exact ⟨(hnew' _ hc).symm, hcall.symm, hst.symm, (by simp), (by simp), fun _ => ⟨_, hnew' _ hc, rfl⟩⟩
            | some n =>
              rw [hL'] at hc
              have hc' : computedAt (L ++ [(h.length, Op.access)]) = computedAt L := by rw [hc, hL']; rfl
              cases b with
              | none => rw [hb.mp rfl] at hL'; cases hL'
              | some v =>
                refine ⟨(hsame _ hc').symm, h2, h3, (by simp), (by simp), fun _ => ⟨v, hsame _ hc', rfl⟩⟩
        obtain ⟨s1, s2, s3, s4⟩ := hstep
        have hbound : ∀ n, computedAt (L ++ [(h.length, o)]) = some n → n < (h ++ [POp.call i o]).length := by
          intro n hn
          rw [computedAt_snoc] at hn
          simp only [List.length_append, List.length_singleton]
          cases o with
          | hasValue => have := hLn n hn; omega
          | reset => cases hn
          | refresh => cases hn; omega
          | access =>
            cases hL' : computedAt L with
            | none => rw [hL'] at hn; cases hn; omega
            | some m => rw [hL'] at hn; cases hn; have := hLn _ hL'; omega
        refine ⟨?_, s2, s3, hlen, ?_, ?_⟩
        · show Q.objs.set i _ = _
          rw [hh, List.map_set, hmap, s1]
        · rw [hh]; intro M hM n hn
          rcases List.mem_or_eq_of_mem_set hM with hM | rfl
          · have := h5 M hM n hn; simp; omega
          · exact hbound n hn
        · intro n i' o' hno
          by_cases hn : n < h.length
          · exact hold6 n i' o' hn hno
          · have hn' : n < (h ++ [POp.call i o]).length := (List.getElem?_eq_some_iff.mp hno).1
            have : n = h.length := by simp at hn'; omega
            subst this
            rw [hlast] at hno
            simp only [Option.some.injEq, POp.call.injEq] at hno
            obtain ⟨rfl, rfl⟩ := hno
            refine ⟨L ++ [(h.length, o)], ?_, hbound, ?_⟩
            · rw [show h.length + 1 = (h ++ [POp.call i o]).length by simp, List.take_length, hh,
                List.getElem?_set_self hil]
            · rw [show ∀ x : Res α, (qs ++ [x])[h.length]? = some x from fun x => by rw [← h4]; simp]
              refine ⟨fun e => by rw [s4.1 e], fun e => by rw [s4.2.1 e], fun e => ?_⟩
              obtain ⟨v, a, b⟩ := s4.2.2 e
              exact ⟨v, a, by rw [b]⟩

/-- Two copies made before the first access call the function once each; a copy made after it does not call. -/
example : (match prun (fun n : Nat => (some n, n + 1)) ⟨[], 10, []⟩
    [.make, .copy 0, .call 0 .access, .call 1 .access, .copy 0, .call 2 .access, .call 0 .reset, .call 2 .access] with
    | .ok (P, _) => some (P.objs, P.log)
    | _ => none) = some ([none, some 11, some 10], [some 10, some 11]) := by decide

end Verif.Cached
