import Verif.InitOnce.Model
import Verif.Seqlock.Props

/-!
# Properties of initialisation by the first thread that needs it (C160)
-/

namespace Verif.InitOnce

open Verif.Sync Verif.Conc
open Verif.Ring (count event_getD count_exists)

variable {κ γ δ : Type} {D : Decls κ γ} [DecidableEq κ] [DecidableEq γ]

/-! ## Lemmas -/

theorem exchange_does {C : Atomic.Cfg} {dflt : MOrd} {val : Nat → BitVec C.e} {r : Rec (ACall C) (Option (BitVec C.w))} {u : BitVec C.w}
    (hl : r.call.1 = .exchange u) (h : Does (aimpl C dflt) val r) :
    ∃ j, r.acc = .write j ∧ val (j + 1) = Atomic.widen C u ∧ r.res = some (Atomic.narrow C (val j)) := by
  obtain ⟨⟨op, mo⟩, res, acc⟩ := r
  simp only at hl
  subst hl
  obtain ⟨k, o, f, c, e, h1, h2⟩ := h
  simp only [aimpl, acall, Sync.exchange, access_ok (rmw_ok _), LProg.bind, LProg.access.injEq] at e
  obtain ⟨rfl, rfl, rfl, rfl⟩ := e
  rcases h2 with ⟨h, _⟩ | ⟨_, j, hj, hv⟩
  · cases h
  · simp only at hj
    subst hj
    simp only [Acc.pos, LProg.ret.injEq] at h1
    exact ⟨j, rfl, hv, h1.symm⟩

theorem plain_num {a : γ} {r} {d : δ} {m : Bool} : (Event.num a r : Event D δ) ≠ .plain d m := by simp

section

variable {ord : MOrd → Prop} {claimed ready : γ} {P : δ → Prop}

/-- What is known of the events of one thread. -/
structure Facts (ord : MOrd → Prop) (claimed ready : γ) (P : δ → Prop) (l : List (Event D δ)) (s : Stage) : Prop where
  /-- Who initialises has won and has stored nothing. -/
  first : s = .first → (∃ (n : Nat) (r : _), l[n]? = some (.num claimed r) ∧ Wins r) ∧
    ∀ (z : Nat) q, l[z]? = some (.num ready q) → q.call.1 = .load
  /-- Before it knows anything, a thread stores nothing. -/
  idle : s = .idle → ∀ (z : Nat) q, l[z]? = some (.num ready q) → q.call.1 = .load
  /-- Who knows that the data is ready has seen it, or has won. -/
  known : s = .ready → (∃ (y : Nat) (mo : _) (v : _) (acc : _), l[y]? = some (.num ready ⟨(.load, mo), some v, acc⟩) ∧ v ≠ 0#_ ∧
    (mo = none ∨ ∃ o, mo = some o ∧ Acquiring o)) ∨ ∃ (n : Nat) (r : _), l[n]? = some (.num claimed r) ∧ Wins r
  claims : ∀ (n : Nat) r, l[n]? = some (.num claimed r) → r.call.1 = .load ∨ ∃ u, r.call.1 = .exchange u ∧ u ≠ 0#_
  stores : ∀ (n : Nat) r, l[n]? = some (.num ready r) → r.call.1 = .load ∨ (∃ u, (r.call.1 = .store u ∨ r.call.1 = .assign u) ∧ u ≠ 0#_) ∧
    ord (aorder D.dflt r.call.1 r.call.2) ∧ (∃ (n' : Nat) (r' : _), l[n']? = some (.num claimed r') ∧ Wins r') ∧
    ∀ (z : Nat) q, z < n → l[z]? = some (.num ready q) → q.call.1 = .load
  uses : ∀ (x : Nat) d m, P d → l[x]? = some (.plain d m) →
    ((∃ (n : Nat) (r : _), l[n]? = some (.num claimed r) ∧ Wins r) ∧ ∀ (z : Nat) q, z < x → l[z]? = some (.num ready q) → q.call.1 = .load) ∨
    m = false ∧ ((∃ (y : Nat) (mo : _) (v : _) (acc : _), y < x ∧ l[y]? = some (.num ready ⟨(.load, mo), some v, acc⟩) ∧ v ≠ 0#_ ∧
      (mo = none ∨ ∃ o, mo = some o ∧ Acquiring o)) ∨ ∃ (n : Nat) (r : _), l[n]? = some (.num claimed r) ∧ Wins r)

theorem at_append {ε : Type} {l : List ε} {e x : ε} {n : Nat} : (l ++ [e])[n]? = some x ↔ l[n]? = some x ∨ n = l.length ∧ x = e := by
  rcases Nat.lt_trichotomy n l.length with h | h | h
  · rw [List.getElem?_append_left h]
    exact ⟨.inl, fun h' => h'.elim id fun h' => by omega⟩
  · subst h
    simp [eq_comm]
  · rw [List.getElem?_append_right (by omega)]
    constructor
    · intro h'
      obtain ⟨h1, -⟩ := List.getElem?_eq_some_iff.mp h'
      simp at h1; omega
    · rintro (h' | ⟨h', -⟩)
      · obtain ⟨h1, -⟩ := List.getElem?_eq_some_iff.mp h'; omega
      · omega

theorem at_lt {ε : Type} {l : List ε} {x : ε} {n : Nat} (h : l[n]? = some x) : n < l.length := (List.getElem?_eq_some_iff.mp h).1

theorem facts (hne : claimed ≠ ready) {l : List (Event D δ)} {s : Stage} (h : Runs ord claimed ready P l s) : Facts ord claimed ready P l s := by
  induction h with
  | start => constructor <;> simp
  | step l e s s' _ he ih =>
    have won : (∃ (n : Nat) (r : _), l[n]? = some (.num claimed r) ∧ Wins r) → ∃ (n : Nat) (r : _), (l ++ [e])[n]? = some (.num claimed r) ∧ Wins r :=
      fun ⟨n, r, h1, h2⟩ => ⟨n, r, at_append.mpr (.inl h1), h2⟩
    have seen : (∃ (y : Nat) (mo : _) (v : _) (acc : _), l[y]? = some (.num ready ⟨(.load, mo), some v, acc⟩) ∧ v ≠ 0#_ ∧
        (mo = none ∨ ∃ o, mo = some o ∧ Acquiring o)) → ∃ (y : Nat) (mo : _) (v : _) (acc : _), y < l.length ∧ (l ++ [e])[y]? = some (.num ready ⟨(.load, mo), some v, acc⟩) ∧
          v ≠ 0#_ ∧ (mo = none ∨ ∃ o, mo = some o ∧ Acquiring o) :=
      fun ⟨y, mo, v, acc, h1, h2⟩ => ⟨y, mo, v, acc, at_lt h1, at_append.mpr (.inl h1), h2⟩
    -- what the new event is
    have hclaim : ∀ r, e = .num claimed r → r.call.1 = .load ∨ ∃ u, r.call.1 = .exchange u ∧ u ≠ 0#_ := by
      rintro r rfl
      generalize hE : (Event.num claimed r : Event D δ) = e at *
      cases he with
      | other => exact .inl ((by assumption : Free claimed ready P e).1 r hE.symm)
      | win q u h hu => cases hE; exact .inr ⟨u, h, hu⟩
      | lose q u v h hu => cases hE; exact .inr ⟨u, h, hu⟩
      | publish | see =>
        have := congrArg (fun e : Event D δ => match e with | .num a _ => some a | _ => none) hE
        simp only [Option.some.injEq] at this
        exact absurd this hne
      | init | use => cases hE
    have hstore : ∀ r, e = .num ready r → r.call.1 = .load ∨ s = .first ∧ s' = .ready ∧ (∃ u, (r.call.1 = .store u ∨ r.call.1 = .assign u) ∧ u ≠ 0#_) ∧
        ord (aorder D.dflt r.call.1 r.call.2) := by
      rintro r rfl
      generalize hE : (Event.num ready r : Event D δ) = e at *
      cases he with
      | other => exact .inl ((by assumption : Free claimed ready P e).2.1 r hE.symm)
      | publish q u h hu ho => cases hE; exact .inr ⟨rfl, rfl, ⟨u, h, hu⟩, ho⟩
      | see mo v acc => cases hE; exact .inl rfl
      | win | lose =>
        have := congrArg (fun e : Event D δ => match e with | .num a _ => some a | _ => none) hE
        simp only [Option.some.injEq] at this
        exact absurd this.symm hne
      | init | use => cases hE
    have quiet : (∀ (z : Nat) q, l[z]? = some (.num ready q) → q.call.1 = .load) → s' ≠ .ready →
        ∀ (z : Nat) q, (l ++ [e])[z]? = some (.num ready q) → q.call.1 = .load := by
      intro h hs z q hz
      rcases at_append.mp hz with hz | ⟨-, hz⟩
      · exact h z q hz
      · rcases hstore q hz.symm with h' | ⟨-, h', -⟩
        · exact h'
        · exact absurd h' hs
    constructor
    · intro hs
      subst hs
      have hq : ∀ (z : Nat) q, l[z]? = some (.num ready q) → q.call.1 = .load := by
        cases he with
        | other _ hf => exact (ih.first rfl).2
        | win => exact ih.idle rfl
        | init => exact (ih.first rfl).2
      refine ⟨?_, quiet hq (by simp)⟩
      cases he with
      | other _ hf => exact won (ih.first rfl).1
      | win r u h hu hv => exact ⟨l.length, r, at_append.mpr (.inr ⟨rfl, rfl⟩), ⟨u, h⟩, hv⟩
      | init => exact won (ih.first rfl).1
    · intro hs
      subst hs
      refine quiet ?_ (by simp)
      cases he with
      | other _ hf => exact ih.idle rfl
      | lose => exact ih.idle rfl
    · intro hs
      subst hs
      cases he with
      | other _ hf =>
        rcases ih.known rfl with h | h
        · obtain ⟨y, mo, v, acc, -, h1⟩ := seen h
          exact .inl ⟨y, mo, v, acc, h1⟩
        · exact .inr (won h)
      | publish => exact .inr (won (ih.first rfl).1)
      | see mo v acc hn ho => exact .inl ⟨l.length, mo, v, acc, at_append.mpr (.inr ⟨rfl, rfl⟩), hn, ho⟩
      | use =>
        rcases ih.known rfl with h | h
        · obtain ⟨y, mo, v, acc, -, h1⟩ := seen h
          exact .inl ⟨y, mo, v, acc, h1⟩
        · exact .inr (won h)
    · intro n r hn
      rcases at_append.mp hn with hn | ⟨-, hn⟩
      · exact ih.claims n r hn
      · exact hclaim r hn.symm
    · intro n r hn
      rcases at_append.mp hn with hn | ⟨rfl, hn2⟩
      · rcases ih.stores n r hn with h | ⟨h1, h2, h3, h4⟩
        · exact .inl h
        · refine .inr ⟨h1, h2, won h3, fun z q hz hq => ?_⟩
          rcases at_append.mp hq with hq | ⟨rfl, -⟩
          · exact h4 z q hz hq
          · have := at_lt hn; omega
      · rcases hstore r hn2.symm with h | ⟨h1, -, h3, h4⟩
        · exact .inl h
        · refine .inr ⟨h3, h4, won (ih.first h1).1, fun z q hz hq => ?_⟩
          rcases at_append.mp hq with hq | ⟨rfl, -⟩
          · exact (ih.first h1).2 z q hq
          · omega
    · intro x d m hd hx
      rcases at_append.mp hx with hx | ⟨rfl, hx2⟩
      · rcases ih.uses x d m hd hx with ⟨h1, h2⟩ | ⟨h1, h2⟩
        · refine .inl ⟨won h1, fun z q hz hq => ?_⟩
          rcases at_append.mp hq with hq | ⟨rfl, -⟩
          · exact h2 z q hz hq
          · have := at_lt hx; omega
        · refine .inr ⟨h1, ?_⟩
          rcases h2 with ⟨y, mo, v, acc, hy, h⟩ | h
          · exact .inl ⟨y, mo, v, acc, hy, at_append.mpr (.inl h.1), h.2⟩
          · exact .inr (won h)
      · subst hx2
        cases he with
        | other => exact absurd rfl ((by assumption : Free claimed ready P (.plain d m)).2.2 d m hd)
        | init =>
          refine .inl ⟨won (ih.first rfl).1, fun z q hz hq => ?_⟩
          rcases at_append.mp hq with hq | ⟨rfl, -⟩
          · exact (ih.first rfl).2 z q hq
          · omega
        | use =>
          refine .inr ⟨rfl, ?_⟩
          rcases ih.known rfl with h | h
          · exact .inl (seen h)
          · exact .inr (won h)

end

section

variable {ord : MOrd → Prop} {c0 : (k : κ) → BitVec (D.w k)} {v0 : (a : γ) → BitVec (D.C a).w} {threads : List (List (Event D δ))}
  {claimed ready : γ} {P : δ → Prop}

theorem factsAt (h : Run ord c0 v0 threads claimed ready P) (t : Nat) : ∃ s, Facts ord claimed ready P (threads.getD t []) s := by
  obtain ⟨s, hs⟩ := h.programs t
  exact ⟨s, facts h.differ hs⟩

/-! ## Properties -/

/-- **C160, one initialises.** However many threads ask, with whatever memory orders, the exchange returns 0 once at most. -/
theorem C160_once (h : Run ord c0 v0 threads claimed ready P) {t n t' n' : Nat} {r r'}
    (he : eventAt threads t n = some (.num claimed r)) (he' : eventAt threads t' n' = some (.num claimed r')) (hw : Wins r) (hw' : Wins r') :
    t = t' ∧ n = n' := by
  obtain ⟨m, val, hh⟩ := h.histories.num claimed
  have call : ∀ {t n r}, eventAt threads t n = some (.num claimed r) →
      callAt (part (Event.num? claimed) threads) t (before (Event.num? claimed) threads t n) = some r := fun h => part_callAt h (num?_eq claimed _)
  have does : ∀ {t n r}, eventAt threads t n = some (.num claimed r) → Does (aimpl (D.C claimed) D.dflt) val r := by
    intro t n r h
    obtain ⟨rs, h1, h2⟩ := callAt_mem (call h)
    exact hh.does rs h1 r h2
  have nonzero : ∀ j, j < m → Atomic.narrow (D.C claimed) (val (j + 1)) ≠ 0#_ := by
    intro j hj
    obtain ⟨t, n, q, hq, hqa⟩ := hh.writer j hj
    obtain ⟨b, e, e1, e2, -⟩ := callAt_part hq
    rw [num?_some e2] at e1
    obtain ⟨s, hf⟩ := factsAt h t
    have e3 := e1
    rw [event_getD] at e3
    rcases hf.claims b q e3 with hl | ⟨u, hu, hn⟩
    · obtain ⟨p, _, _, hp, _⟩ := load_does hl (does e1)
      rw [hqa] at hp; cases hp
    · obtain ⟨j', hj', hv, -⟩ := exchange_does hu (does e1)
      rw [hqa] at hj'; cases hj'
      rw [hv, Atomic.narrow, Atomic.narrow_widen (h.decls.elem claimed)]
      exact hn
  have zero : ∀ {t n r}, eventAt threads t n = some (.num claimed r) → Wins r → r.acc = .write 0 := by
    intro t n r he hw
    obtain ⟨⟨u, hu⟩, hr⟩ := hw
    obtain ⟨j, hj, -, hres⟩ := exchange_does hu (does he)
    obtain ⟨rs, hm1, hm2⟩ := callAt_mem (call he)
    have hjm := (hh.bounded rs hm1 r hm2).1 j hj
    rw [hr, Option.some.injEq] at hres
    cases j with
    | zero => exact hj
    | succ j => exact absurd hres.symm (nonzero j (by omega))
  obtain ⟨h1, h2⟩ := hh.unique (call he) (call he') (zero he hw) (zero he' hw')
  refine ⟨h1, ?_⟩
  subst h1
  rcases Nat.lt_trichotomy n n' with hl | hl | hl
  · have := before_lt he (num?_eq claimed _) hl; omega
  · exact hl
  · have := before_lt he' (num?_eq claimed _) hl; omega

/-- **C160, somebody initialises.** If any thread has asked, one has got 0. -/
theorem C160_somebody (h : Run ord c0 v0 threads claimed ready P) {t n : Nat} {r u} (he : eventAt threads t n = some (.num claimed r))
    (hr : r.call.1 = .exchange u) : ∃ t' n' r', eventAt threads t' n' = some (.num claimed r') ∧ Wins r' := by
  obtain ⟨m, val, hh⟩ := h.histories.num claimed
  have does : ∀ {t n r}, callAt (part (Event.num? claimed) threads) t n = some r → Does (aimpl (D.C claimed) D.dflt) val r := by
    intro t n r h
    obtain ⟨rs, h1, h2⟩ := callAt_mem h
    exact hh.does rs h1 r h2
  have hc := part_callAt he (num?_eq claimed _)
  obtain ⟨j, hj, -, -⟩ := exchange_does hr (does hc)
  obtain ⟨rs, hm1, hm2⟩ := callAt_mem hc
  have hjm := (hh.bounded rs hm1 r hm2).1 j hj
  obtain ⟨t', k, q, hq, hqa⟩ := hh.writer 0 (by omega)
  obtain ⟨n', e, e1, e2, -⟩ := callAt_part hq
  rw [num?_some e2] at e1
  refine ⟨t', n', q, e1, ?_⟩
  obtain ⟨s, hf⟩ := factsAt h t'
  rw [event_getD] at e1
  rcases hf.claims n' q e1 with hl | ⟨u', hu, -⟩
  · obtain ⟨p, _, _, hp, _⟩ := load_does hl (does hq)
    rw [hqa] at hp; cases hp
  · obtain ⟨j', hj', -, hres⟩ := exchange_does hu (does hq)
    rw [hqa] at hj'; cases hj'
    refine ⟨⟨u', hu⟩, ?_⟩
    rw [hres, hh.initial, Atomic.init, Atomic.narrow, Atomic.narrow_widen (h.decls.elem claimed), h.claimedZero]

/-- What a thread has done to the data before it said that it is ready happens before what others do with it. -/
theorem ordered (h : Run Releasing c0 v0 threads claimed ready P) {t x t' x' : Nat} {d d' : δ} {m m' : Bool} (ht : t ≠ t') (hd : P d) (hd' : P d')
    (he : eventAt threads t x = some (.plain d m)) (he' : eventAt threads t' x' = some (.plain d' m'))
    (hw : (∃ n r, eventAt threads t n = some (.num claimed r) ∧ Wins r) ∧
      ∀ z q, z < x → eventAt threads t z = some (.num ready q) → q.call.1 = .load) : HB threads t x t' x' := by
  obtain ⟨⟨n, r, hn, hr⟩, hq⟩ := hw
  have only : ∀ t'' , (∃ (n : Nat) (r : _), (threads.getD t'' [])[n]? = some (.num claimed r) ∧ Wins r) → t'' = t := by
    rintro t'' ⟨n', r', h1, h2⟩
    rw [← event_getD] at h1
    exact (C160_once h h1 hn h2 hr).1
  have hu : ∀ t'' z q, eventAt threads t'' z = some (.num ready q) → q.call.1 = .load ∨ t'' = t ∧ ∃ u, q.call.1 = .store u ∨ q.call.1 = .assign u := by
    intro t'' z q hz
    obtain ⟨s, hf⟩ := factsAt h t''
    rw [event_getD] at hz
    rcases hf.stores z q hz with h1 | ⟨⟨u, h1, -⟩, -, h3, -⟩
    · exact .inl h1
    · exact .inr ⟨only t'' h3, u, h1⟩
  obtain ⟨V, hV⟩ := Seqlock.single h.decls h.histories hu
  obtain ⟨s', hf'⟩ := factsAt h t'
  have e' := he'
  rw [event_getD] at e'
  have key : ∃ (y : Nat) (mo : _) (v : _) (acc : _), y < x' ∧ (threads.getD t' [])[y]? = some (.num ready ⟨(.load, mo), some v, acc⟩) ∧ v ≠ 0#_ ∧
      (mo = none ∨ ∃ o, mo = some o ∧ Acquiring o) := by
    rcases hf'.uses x' d' m' hd' e' with ⟨h1, -⟩ | ⟨-, h1 | h1⟩
    · exact absurd (only t' h1).symm ht
    · exact h1
    · exact absurd (only t' h1).symm ht
  obtain ⟨y, mo, v, acc, hy, ey, hv, hacq⟩ := key
  rw [← event_getD] at ey
  obtain ⟨p, hp, hres, hz⟩ := hV.load t' y _ ey rfl
  simp only [Option.some.injEq] at hp hres
  have hp0 : p ≠ 0 := by
    rintro rfl
    rw [hV.zero, h.readyZero] at hres
    exact hv hres
  obtain ⟨s, hf⟩ := factsAt h t
  have earlier : ∀ z q, eventAt threads t z = some (.num ready q) → q.call.1 ≠ .load → count threads ready t z = 0 ∧
      Releasing (aorder D.dflt q.call.1 q.call.2) := by
    intro z q hz' hne
    have e2 := hz'
    rw [event_getD] at e2
    rcases hf.stores z q e2 with h1 | ⟨-, h2, -, h4⟩
    · exact absurd h1 hne
    · refine ⟨?_, h2⟩
      cases hc : count threads ready t z with
      | zero => rfl
      | succ k =>
        obtain ⟨z', q', hlt, h5, h6, -⟩ := count_exists hc
        rw [event_getD] at h5
        exact absurd (h4 z' q' hlt h5) h6
  have hp1 : p = 1 := by
    refine Classical.byContradiction fun hne => ?_
    obtain ⟨z, q, h1, h2, h3⟩ := hz 1 (by omega)
    have := (earlier z q h1 h2).1
    omega
  subst hp1
  obtain ⟨z, q, h1, h2, h3⟩ := hz 0 (by omega)
  have hs : HB threads t z t' y := hV.sync z q t' y _ h1 h2 (earlier z q h1 h2).2 ey rfl hacq (by rw [h3]; exact hp)
  have hxz : x < z := by
    rcases Nat.lt_trichotomy x z with hl | rfl | hl
    · exact hl
    · rw [he] at h1; cases h1
    · exact absurd (hq z q hl h1) h2
  exact .trans _ _ _ _ _ _ (.same _ _ _ _ _ he h1 hxz) (.trans _ _ _ _ _ _ hs (.same _ _ _ _ _ ey he' hy))

/-- **C160, the data is initialised when it is used.** Whatever a thread has written to the data happens before everything that any other
thread does with the data. -/
theorem C160_initialised (h : Run Releasing c0 v0 threads claimed ready P) {t x t' x' : Nat} {d d' : δ} {m' : Bool} (ht : t ≠ t') (hd : P d)
    (hd' : P d') (he : eventAt threads t x = some (.plain d true)) (he' : eventAt threads t' x' = some (.plain d' m')) :
    m' = false ∧ HB threads t x t' x' := by
  obtain ⟨s, hf⟩ := factsAt h t
  obtain ⟨s', hf'⟩ := factsAt h t'
  have e := he
  have e' := he'
  rw [event_getD] at e e'
  rcases hf.uses x d true hd e with ⟨⟨n, r, h1, h2⟩, h3⟩ | ⟨h1, -⟩
  · rw [← event_getD] at h1
    refine ⟨?_, ordered h ht hd hd' he he' ⟨⟨n, r, h1, h2⟩, fun z q hz hq => h3 z q hz (by rw [← event_getD]; exact hq)⟩⟩
    rcases hf'.uses x' d' m' hd' e' with ⟨⟨n', r', h1', h2'⟩, -⟩ | ⟨h1, -⟩
    · rw [← event_getD] at h1'
      exact absurd (C160_once h h1 h1' h2 h2').1 ht
    · exact h1
  · cases h1

/-- **C160, no data race.** -/
theorem C160_no_race (h : Run Releasing c0 v0 threads claimed ready P) {d : δ} (hd : P d) : ¬ Race threads d := by
  rintro ⟨t, x, m, t', x', m', he, he', hm, hne, h1, h2⟩
  by_cases ht : t = t'
  · subst ht
    rcases Nat.lt_trichotomy x x' with hl | hl | hl
    · exact h1 (.same _ _ _ _ _ he he' hl)
    · exact hne ⟨rfl, hl⟩
    · exact h2 (.same _ _ _ _ _ he' he hl)
  · rcases hm with rfl | rfl
    · exact h1 (C160_initialised h ht hd hd he he').2
    · exact h2 (C160_initialised h (Ne.symm ht) hd hd he' he).2

end

/-! ## Examples -/

/-- The first thread initialises, the second one asks too late and waits. -/
def late (mo : MOrd) : List (List (Event desk Nat)) :=
  [[.num false ⟨(.exchange 1#8, some .relaxed), some 0#8, .write 0⟩, .plain 3 true, .num true ⟨(.store 1#8, some mo), none, .write 0⟩],
   [.num false ⟨(.exchange 1#8, some .relaxed), some 1#8, .write 1⟩, .num true ⟨(.load, some .acquire), some 1#8, .read 1⟩, .plain 3 false]]

theorem late_histories {mo : MOrd} (h : mo = .release ∨ mo = .relaxed) : Histories (fun _ => 0#8) (fun _ => 0#8) (late mo) := by
  refine ⟨fun | () => ⟨0, fun _ => 0#8, .of_rules rfl ?_ ?_⟩, fun
    | false => ⟨2, fun n => [0#32, 1#32, 1#32].getD n 0#32, .of_rules rfl ?_ ?_⟩
    | true => ⟨1, fun n => [0#32, 1#32].getD n 0#32, .of_rules rfl ?_ ?_⟩⟩
  · intro rs hrs r hr
    fin_cases hrs <;> simp [Event.bits?] at hr
  · rcases h with rfl | rfl <;> decide
  · intro rs hrs r hr
    fin_cases hrs <;> fin_cases hr
    · exact ⟨_, _, _, _, rfl, rfl, .inr ⟨by decide, 0, rfl, rfl⟩⟩
    · exact ⟨_, _, _, _, rfl, rfl, .inr ⟨by decide, 1, rfl, rfl⟩⟩
  · rcases h with rfl | rfl <;> decide
  · intro rs hrs r hr
    rcases h with rfl | rfl <;> fin_cases hrs <;> fin_cases hr
    · exact ⟨_, _, _, _, rfl, rfl, .inr ⟨by decide, 0, rfl, rfl⟩⟩
    · exact ⟨_, _, _, _, rfl, rfl, .inl ⟨rfl, 1, rfl⟩⟩
    · exact ⟨_, _, _, _, rfl, rfl, .inr ⟨by decide, 0, rfl, rfl⟩⟩
    · exact ⟨_, _, _, _, rfl, rfl, .inl ⟨rfl, 1, rfl⟩⟩
  · rcases h with rfl | rfl <;> decide

theorem late_run {mo : MOrd} (h : mo = .release ∨ mo = .relaxed) {ord : MOrd → Prop} (ho : ord mo) :
    Run ord (fun _ => 0#8) (fun _ => 0#8) (late mo) false true (fun d => d = 3) where
  decls := desk_ok
  histories := late_histories h
  claimedZero := rfl
  readyZero := rfl
  differ := by decide
  programs := fun t => by
    match t with
    | 0 =>
      refine ⟨.ready, ?_⟩
      show Runs ord false true _ ((([] ++ [_]) ++ [_]) ++ [_]) .ready
      refine .step _ _ .first _ (.step _ _ .first _ (.step _ _ .idle _ .start ?_) ?_) ?_
      · exact .win _ 1#8 rfl (show 1#8 ≠ 0#8 by decide) rfl
      · exact .init 3 true rfl
      · exact .publish _ 1#8 (.inl rfl) (show 1#8 ≠ 0#8 by decide) ho
    | 1 =>
      refine ⟨.ready, ?_⟩
      show Runs ord false true _ ((([] ++ [_]) ++ [_]) ++ [_]) .ready
      refine .step _ _ .ready _ (.step _ _ .idle _ (.step _ _ .idle _ .start ?_) ?_) ?_
      · exact .lose _ 1#8 1#8 rfl (show 1#8 ≠ 0#8 by decide) rfl (show 1#8 ≠ 0#8 by decide)
      · refine .see (D := desk) (ready := true) _ 1#8 _ (show 1#8 ≠ 0#8 by decide) (.inr ⟨_, rfl, .inl rfl⟩)
      · exact .use 3 rfl
    | _ + 2 => exact ⟨.idle, .start⟩

example : ¬ Race (late .release) 3 := C160_no_race (late_run (.inl rfl) (.inl rfl)) rfl

example : HB (late .release) 0 1 1 2 :=
  (C160_initialised (late_run (.inl rfl) (.inl rfl)) (d := 3) (d' := 3) (by decide) rfl rfl rfl rfl).2

example {t n : Nat} {r} (he : eventAt (late .release) t n = some (.num false r)) (hw : Wins r) : t = 0 ∧ n = 0 :=
  C160_once (late_run (.inl rfl) (.inl rfl) (ord := Releasing)) he (t' := 0) (n' := 0) rfl hw ⟨⟨1#8, rfl⟩, rfl⟩

example : ∃ t' n' r', eventAt (late .release) t' n' = some (.num false r') ∧ Wins r' :=
  C160_somebody (late_run (.inl rfl) (.inl rfl) (ord := Releasing)) (t := 1) (n := 0) rfl rfl

/-- **C160, the order matters.** If the thread that has initialised the data says so with a `relaxed` store, there is an execution with a data
race. -/
theorem C160_relaxed_race : ∃ threads : List (List (Event desk Nat)),
    Run (fun o => o = .relaxed) (fun _ => 0#8) (fun _ => 0#8) threads false true (fun d => d = 3) ∧ Race threads 3 := by
  have hno : ∀ t n t' n', HB (late .relaxed) t n t' n' → t = t' := by
    intro t n t' n' h
    induction h with
    | same => rfl
    | bits k t n t' n' q q' h h' hs =>
      match t, n with
      | 0, 0 | 0, 1 | 0, 2 | 1, 0 | 1, 1 | 1, 2 => cases h
      | 0, _ + 3 | 1, _ + 3 => cases h
      | _ + 2, _ => simp [eventAt, late] at h
    | num a t n t' n' q q' h h' hs =>
      obtain ⟨r, r', _, _, _, _, _, _, _, _, j, h1, h2, h3, _, _, h5, _, _, h6, h7, _⟩ := hs
      rw [part_callAt h (num?_eq a _), Option.some.injEq] at h1
      subst h1
      match t, n with
      | 0, 0 | 0, 2 | 1, 0 => cases h; cases h3; cases h5
      | 1, 1 => cases h; cases h6
      | 0, 1 | 1, 2 => cases h
      | 0, _ + 3 | 1, _ + 3 => cases h
      | _ + 2, _ => simp [eventAt, late] at h
    | trans _ _ _ _ _ _ _ _ ih ih' => exact ih.trans ih'
  refine ⟨late .relaxed, late_run (.inr rfl) rfl, 0, 1, true, 1, 2, false, rfl, rfl, .inl rfl, by decide, fun h => ?_, fun h => ?_⟩
  · cases hno _ _ _ _ h
  · cases hno _ _ _ _ h

end Verif.InitOnce
