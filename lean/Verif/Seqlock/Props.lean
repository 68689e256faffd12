import Verif.Seqlock.Model
import Verif.Seqlock.Spec
import Verif.Ring.PropsRing
import Verif.Sync.Check

/-!
# Properties of a sequence lock (C159)
-/

namespace Verif.Seqlock

open Verif.Sync Verif.Conc
open Verif.Ring (count changes changes_num count_mono event_getD count_succ count_none count_change count_same count_exists Same)

variable {κ γ δ : Type} {D : Decls κ γ} [DecidableEq κ] [DecidableEq γ]

/-! ## Lemmas -/

/-- What is known of an atomic that only one thread changes, by stores; `V p` is what the first `p` stores leave. -/
structure Single (threads : List (List (Event D δ))) (v : BitVec (D.C a).w) (t0 : Nat) (V : Nat → BitVec (D.C a).w) : Prop where
  zero : V 0 = v
  load : ∀ t l r, eventAt threads t l = some (.num a r) → r.call.1 = .load → ∃ p, r.acc = .read p ∧ r.res = some (V p) ∧
    ∀ q, q < p → ∃ z r', eventAt threads t0 z = some (.num a r') ∧ r'.call.1 ≠ .load ∧ count threads a t0 z = q
  store : ∀ n r, eventAt threads t0 n = some (.num a r) → r.call.1 ≠ .load → r.acc = .write (count threads a t0 n) ∧
    ∀ u, r.call.1 = .store u ∨ r.call.1 = .assign u → V (count threads a t0 n + 1) = u
  sync : ∀ n r t l r', eventAt threads t0 n = some (.num a r) → r.call.1 ≠ .load → Releasing (aorder D.dflt r.call.1 r.call.2) →
    eventAt threads t l = some (.num a r') → r'.call.1 = .load → (r'.call.2 = none ∨ ∃ o, r'.call.2 = some o ∧ Acquiring o) →
    r'.acc = .read (count threads a t0 n + 1) → HB threads t0 n t l

theorem single {c0 : (k : κ) → BitVec (D.w k)} {v0 : (a : γ) → BitVec (D.C a).w} (hD : D.Ok) {threads : List (List (Event D δ))}
    (hx : Histories c0 v0 threads) {a : γ} {t0 : Nat}
    (hu : ∀ t n r, eventAt threads t n = some (.num a r) → r.call.1 = .load ∨ t = t0 ∧ ∃ u, r.call.1 = .store u ∨ r.call.1 = .assign u) :
    ∃ V, Single (a := a) threads (v0 a) t0 V := by
  obtain ⟨m, val, hh⟩ := hx.num a
  have call : ∀ {t n r}, eventAt threads t n = some (.num a r) →
      callAt (part (Event.num? a) threads) t (before (Event.num? a) threads t n) = some r := fun h => part_callAt h (num?_eq a _)
  have does : ∀ {t n r}, eventAt threads t n = some (.num a r) → Does (aimpl (D.C a) D.dflt) val r := by
    intro t n r h
    obtain ⟨rs, h1, h2⟩ := callAt_mem (call h)
    exact hh.does rs h1 r h2
  have ordered : ∀ {t n n' r r'}, eventAt threads t n = some (.num a r) → eventAt threads t n' = some (.num a r') → n < n' →
      Coherent r.acc r'.acc := fun h h' hn => hh.ordered (call h) (call h') (before_lt h (num?_eq a _) hn)
  have stores : ∀ {t n r}, eventAt threads t n = some (.num a r) → r.call.1 ≠ .load → t = t0 ∧ ∃ j, r.acc = .write j ∧ j < m := by
    intro t n r h hne
    rcases hu t n r h with hl | ⟨rfl, u, hst⟩
    · exact absurd hl hne
    · obtain ⟨j, _, _, hj, _⟩ := store_does hst (does h)
      obtain ⟨rs, hm1, hm2⟩ := callAt_mem (call h)
      exact ⟨rfl, j, hj, (hh.bounded rs hm1 r hm2).1 j hj⟩
  have writer : ∀ j, j < m → ∃ n r, eventAt threads t0 n = some (.num a r) ∧ r.call.1 ≠ .load ∧ r.acc = .write j := by
    intro j hj
    obtain ⟨u, c, q, hq, hqa⟩ := hh.writer j hj
    obtain ⟨b, e, e1, e2, -⟩ := callAt_part hq
    rw [num?_some e2] at e1
    have hne : q.call.1 ≠ .load := by
      intro hl
      obtain ⟨p, _, _, hp, _⟩ := load_does hl (does e1)
      rw [hqa] at hp; cases hp
    obtain ⟨rfl, _⟩ := stores e1 hne
    exact ⟨b, q, e1, hne, hqa⟩
  have counted : ∀ j, ∀ n r, eventAt threads t0 n = some (.num a r) → r.acc = .write j → count threads a t0 n = j := by
    intro j
    induction j with
    | zero =>
      intro n r h hj
      have : Same threads a t0 0 n := by
        intro z q _ hz hq
        refine Classical.byContradiction fun hne => ?_
        obtain ⟨_, i, hi, _⟩ := stores hq hne
        have := ordered hq h hz
        rw [hi, hj] at this
        simp [Coherent] at this
      rw [← count_same (Nat.zero_le n) this]
      simp [count]
    | succ j ih =>
      intro n r h hj
      obtain ⟨rs, hm1, hm2⟩ := callAt_mem (call h)
      have hjm := (hh.bounded rs hm1 r hm2).1 _ hj
      obtain ⟨n', r', h', hne', hj'⟩ := writer j (by omega)
      have hlt : n' < n := by
        rcases Nat.lt_trichotomy n' n with hl | rfl | hl
        · exact hl
        · rw [h] at h'; cases h'; rw [hj] at hj'; cases hj'
        · have := ordered h h' hl
          rw [hj, hj'] at this
          simp only [Coherent] at this
          omega
      have hs : Same threads a t0 (n' + 1) n := by
        intro z q hz hz' hq
        refine Classical.byContradiction fun hne => ?_
        obtain ⟨_, i, hi, _⟩ := stores hq hne
        have h1 := ordered hq h hz'
        have h2 := ordered h' hq hz
        rw [hi, hj] at h1
        rw [hj', hi] at h2
        simp only [Coherent] at h1 h2
        omega
      rw [← count_same (by omega) hs, count_succ h', if_pos (changes_num.mpr hne'), ih n' r' h' hj']
  refine ⟨fun p => Atomic.narrow (D.C a) (val p), ?_, ?_, ?_, ?_⟩
  · show Atomic.narrow (D.C a) (val 0) = v0 a
    rw [hh.initial, Atomic.init, Atomic.narrow, Atomic.narrow_widen (hD.elem a)]
  · intro t l r h hl
    obtain ⟨p, _, _, hp, hres, _⟩ := load_does hl (does h)
    refine ⟨p, hp, hres, fun q hq => ?_⟩
    have hpm : p ≤ m := by have := hh.pos_le (call h); rwa [hp] at this
    obtain ⟨n, r', h1, h2, h3⟩ := writer q (by omega)
    exact ⟨n, r', h1, h2, counted q n r' h1 h3⟩
  · intro n r h hne
    obtain ⟨_, j, hj, _⟩ := stores h hne
    rw [counted j n r h hj]
    refine ⟨hj, fun u hst => ?_⟩
    obtain ⟨j', _, _, hj', hval, _⟩ := store_does hst (does h)
    rw [hj] at hj'; cases hj'
    show Atomic.narrow (D.C a) (val (j + 1)) = u
    rw [hval, Atomic.narrow, Atomic.narrow_widen (hD.elem a)]
  · intro n r t l r' h hne hrel h' hl hacq hp
    obtain ⟨_, j, hj, _⟩ := stores h hne
    rw [counted j n r h hj] at hp
    rcases hu t0 n r h with hl' | ⟨-, u, hst⟩
    · exact absurd hl' hne
    obtain ⟨_, f', c', _, _, e2⟩ := store_does hst (does h)
    obtain ⟨_, f, c, _, _, e1⟩ := load_does hl (does h')
    refine .num a t0 n t l _ _ h h' ⟨r, r', _, _, _, _, _, _, _, _, j, call h, call h', e2, e1, by decide, hrel.releases, by decide, ?_, hj,
      by simp [hp, Acc.pos], ?_⟩
    · rcases hacq with hm | ⟨o, hm, ha⟩
      · rw [hm]; rfl
      · rw [hm]; exact ha.acquires
    · intro i hi1 hi2
      simp only [hp, Acc.pos] at hi2
      omega

theorem left_append {a : γ} {v : BitVec (D.C a).w} {l : List (Event D δ)} {e : Event D δ} :
    left a v (l ++ [e]) = ((e.num? a).bind fun r => storedBy r.call).getD (left a v l) := by
  simp [left]

theorem storedBy_load {C : Atomic.Cfg} {c : ACall C} (h : c.1 = .load) : storedBy c = none := by
  obtain ⟨o, mo⟩ := c
  simp only at h
  subst h
  rfl

theorem storedBy_store {C : Atomic.Cfg} {c : ACall C} {u : BitVec C.w} (h : c.1 = .store u ∨ c.1 = .assign u) : storedBy c = some u := by
  obtain ⟨o, mo⟩ := c
  rcases h with h | h <;> simp only at h <;> subst h <;> rfl

theorem num_cases (a : γ) (e : Event D δ) : (∃ r, e = .num a r) ∨ e.num? a = none := by
  cases h : e.num? a with
  | none => exact .inr rfl
  | some r => exact .inl ⟨r, num?_some h⟩

theorem take_event {threads : List (List (Event D δ))} {t n : Nat} {e : Event D δ} (h : eventAt threads t n = some e) :
    (threads.getD t []).take (n + 1) = (threads.getD t []).take n ++ [e] := by
  rw [event_getD] at h
  rw [List.take_add_one, h]
  rfl

theorem take_noevent {threads : List (List (Event D δ))} {t n : Nat} (h : eventAt threads t n = none) :
    (threads.getD t []).take (n + 1) = (threads.getD t []).take n := by
  rw [event_getD] at h
  rw [List.take_add_one, h]
  simp

theorem changes_none {a : γ} {e : Event D δ} (h : e.num? a = none) : changes a e = false := by
  simp [changes, h]

/-- What the stores so far have left. -/
theorem Single.left {a : γ} {threads : List (List (Event D δ))} {v : BitVec (D.C a).w} {t0 : Nat} {V : Nat → BitVec (D.C a).w}
    (hs : Single (a := a) threads v t0 V)
    (hu : ∀ n r, eventAt threads t0 n = some (.num a r) → r.call.1 = .load ∨ ∃ u, r.call.1 = .store u ∨ r.call.1 = .assign u) (n : Nat) :
    V (count threads a t0 n) = left a v ((threads.getD t0 []).take n) := by
  induction n with
  | zero => simp [count, Seqlock.left, hs.zero]
  | succ n ih =>
    cases he : eventAt threads t0 n with
    | none => rw [count_none he, take_noevent he, ih]
    | some e =>
      rw [count_succ he, take_event he, left_append]
      rcases num_cases a e with ⟨r, rfl⟩ | hn
      · rw [num?_eq]
        rcases hu n r he with hl | ⟨u, hst⟩
        · have : changes a (Event.num a r : Event D δ) = false := by
            cases hc : changes a (Event.num a r : Event D δ) with
            | false => rfl
            | true => exact absurd hl (changes_num.mp hc)
          simp [this, storedBy_load hl, ih]
        · have hne : r.call.1 ≠ .load := by rcases hst with h | h <;> rw [h] <;> simp
          rw [if_pos (changes_num.mpr hne), (hs.store n r he hne).2 u hst]
          simp [storedBy_store hst]
      · simp [changes_none hn, hn, ih]

theorem count_stores {a : γ} {threads : List (List (Event D δ))} {t0 : Nat}
    (hu : ∀ n r, eventAt threads t0 n = some (.num a r) → r.call.1 = .load ∨ ∃ u, r.call.1 = .store u ∨ r.call.1 = .assign u) (n : Nat) :
    count threads a t0 n = stores a ((threads.getD t0 []).take n) := by
  induction n with
  | zero => simp [count, stores]
  | succ n ih =>
    cases he : eventAt threads t0 n with
    | none => rw [count_none he, take_noevent he, ih]
    | some e =>
      rw [count_succ he, take_event he, ih]
      unfold stores
      rw [List.filter_append, List.length_append]
      congr 1
      rcases num_cases a e with ⟨r, rfl⟩ | hn
      · rcases hu n r he with hl | ⟨u, hst⟩
        · have : changes a (Event.num a r : Event D δ) = false := by
            cases hc : changes a (Event.num a r : Event D δ) with
            | false => rfl
            | true => exact absurd hl (changes_num.mp hc)
          simp [this, num?_eq, storedBy_load hl]
        · have hne : r.call.1 ≠ .load := by rcases hst with h | h <;> rw [h] <;> simp
          simp [changes_num.mpr hne, num?_eq, storedBy_store hst]
      · simp [changes_none hn, hn]

section

variable {ord : MOrd → Prop} {c0 : (k : κ) → BitVec (D.w k)} {v0 : (a : γ) → BitVec (D.C a).w} {threads : List (List (Event D δ))}
  {seq : γ} {word : Nat → γ} {K P : Nat}

/-- Each event of the writer is a step of the program, from the number of changes so far. -/
theorem step_at (ha : ∀ i, i < K → word i ≠ seq) {l : List (Event D δ)} {s : Nat} (h : Runs ord seq word K l s) :
    s = (l.filter (changes seq)).length ∧
    ∀ n e, l[n]? = some e → ∃ s', Step ord seq word K ((l.take n).filter (changes seq)).length e s' := by
  induction h with
  | start => simp
  | step l e s s' _ he ih =>
    obtain ⟨ih1, ih2⟩ := ih
    constructor
    · rw [List.filter_append, List.length_append, ← ih1]
      cases he with
      | other _ hf =>
        have : changes seq e = false := by
          rcases num_cases seq e with ⟨r, rfl⟩ | hn
          · cases hc : changes seq (Event.num seq r : Event D δ) with
            | false => rfl
            | true => exact absurd (hf.1 r rfl) (changes_num.mp hc)
          · exact changes_none hn
        simp [this]
      | turn r u hst =>
        have hne : r.call.1 ≠ .load := by rcases hst with h | h <;> rw [h] <;> simp
        simp [changes_num.mpr hne]
      | word i r u hi =>
        have hw := ha i hi
        have : changes seq (Event.num (word i) r : Event D δ) = false := changes_none (by simp [Event.num?, hw])
        simp [this]
    · intro n e' hn
      by_cases hlt : n < l.length
      · rw [List.getElem?_append_left hlt] at hn
        rw [List.take_append_of_le_length (by omega)]
        exact ih2 n e' hn
      · have hlen : n < (l ++ [e]).length := (List.getElem?_eq_some_iff.mp hn).1
        have : n = l.length := by simp at hlen; omega
        subst this
        simp only [List.getElem?_concat_length, Option.some.injEq] at hn
        subst hn
        refine ⟨s', ?_⟩
        rw [List.take_append_of_le_length (by omega), List.take_length, ← ih1]
        exact he

theorem stepped (h : Run ord c0 v0 threads seq word K P) {n : Nat} {e : Event D δ} (he : eventAt threads P n = some e) :
    ∃ s', Step ord seq word K (count threads seq P n) e s' := by
  obtain ⟨s, hs⟩ := h.writer
  rw [event_getD] at he
  exact (step_at h.apart hs).2 n e he

theorem seqCalls (h : Run ord c0 v0 threads seq word K P) (t n : Nat) (r) (he : eventAt threads t n = some (.num seq r)) :
    r.call.1 = .load ∨ t = P ∧ ∃ u : BitVec (D.C seq).w, (r.call.1 = .store u ∨ r.call.1 = .assign u) ∧
      u.toNat = (count threads seq P n + 1) % 2 ^ (D.C seq).w ∧
      (count threads seq P n % 2 = 1 → Releasing (aorder D.dflt r.call.1 r.call.2)) := by
  by_cases ht : t = P
  · subst ht
    obtain ⟨s', hs⟩ := stepped h he
    generalize hc : count threads seq t n = c at *
    generalize hE : (Event.num seq r : Event D δ) = e at *
    cases hs with
    | other _ hf => subst hE; exact .inl (hf.1 r rfl)
    | turn q u hst hu ho =>
      cases hE
      exact .inr ⟨rfl, u, hst, hu, ho⟩
    | word i q u hi =>
      have := congrArg (fun e : Event D δ => match e with | .num a _ => some a | _ => none) hE
      simp only [Option.some.injEq] at this
      exact absurd this.symm (h.apart i hi)
  · exact .inl ((h.readers t n _ ht he).1 r rfl)

theorem wordCalls (h : Run ord c0 v0 threads seq word K P) {i : Nat} (hi : i < K) (t n : Nat) (r)
    (he : eventAt threads t n = some (.num (word i) r)) :
    r.call.1 = .load ∨ t = P ∧ (∃ u : BitVec (D.C (word i)).w, r.call.1 = .store u ∨ r.call.1 = .assign u) ∧ count threads seq P n % 2 = 1 ∧
      ord (aorder D.dflt r.call.1 r.call.2) := by
  by_cases ht : t = P
  · subst ht
    obtain ⟨s', hs⟩ := stepped h he
    generalize hc : count threads seq t n = c at *
    generalize hE : (Event.num (word i) r : Event D δ) = e at *
    cases hs with
    | other _ hf => subst hE; exact .inl (hf.2 i r hi rfl)
    | turn q u =>
      have := congrArg (fun e : Event D δ => match e with | .num a _ => some a | _ => none) hE
      simp only [Option.some.injEq] at this
      exact absurd this (h.apart i hi)
    | word j q u hj hodd hst ho =>
      have := congrArg (fun e : Event D δ => match e with | .num a _ => some a | _ => none) hE
      simp only [Option.some.injEq] at this
      have := h.differ i j hi hj this
      subst this
      cases hE
      exact .inr ⟨rfl, ⟨u, hst⟩, hodd, ho⟩
  · exact .inl ((h.readers t n _ ht he).2 i r hi rfl)

/-- What `seq` holds after so many changes. -/
theorem seqValue (h : Run ord c0 v0 threads seq word K P) {V} (hV : Single (a := seq) threads (v0 seq) P V) {t l r p}
    (he : eventAt threads t l = some (.num seq r)) (hl : r.call.1 = .load) (hp : r.acc = .read p) :
    r.res = some (V p) ∧ (V p).toNat = p % 2 ^ (D.C seq).w := by
  obtain ⟨p', h1, h2, h3⟩ := hV.load t l r he hl
  rw [hp] at h1; cases h1
  refine ⟨h2, ?_⟩
  cases p with
  | zero => rw [hV.zero, h.zero]; simp
  | succ p =>
    obtain ⟨z, r', hz, hne, hc⟩ := h3 p (by omega)
    rcases seqCalls h P z r' hz with hl' | ⟨-, u, hst, hu, -⟩
    · exact absurd hl' hne
    · have := (hV.store z r' hz hne).2 u hst
      rw [hc] at this hu
      rw [this, hu]

/-- The first event of the writer at which `seq` has been changed so many times. -/
theorem reach {p : Nat} (h : ∀ q, q < p → ∃ z r, eventAt threads P z = some (.num seq r) ∧ r.call.1 ≠ .load ∧ count threads seq P z = q) :
    ∃ n, count threads seq P n = p ∧ (p = 0 → n = 0) ∧ ∀ q, p = q + 1 → ∃ z r, n = z + 1 ∧ eventAt threads P z = some (.num seq r) ∧ r.call.1 ≠ .load ∧
      count threads seq P z = q := by
  cases p with
  | zero => exact ⟨0, by simp [count], fun _ => rfl, fun q hq => by omega⟩
  | succ p =>
    obtain ⟨z, r, h1, h2, h3⟩ := h p (by omega)
    refine ⟨z + 1, ?_, fun h0 => by omega, fun q hq => ⟨z, r, rfl, h1, h2, by omega⟩⟩
    rw [count_succ h1, if_pos (changes_num.mpr h2), h3]

/-- Where the number of changes has gone past a number, there was the change. -/
theorem passed {a : γ} {p n : Nat} (h : p < count threads a P n) :
    ∃ z r, z < n ∧ eventAt threads P z = some (.num a r) ∧ r.call.1 ≠ .load ∧ count threads a P z = p := by
  obtain ⟨d, hd⟩ : ∃ d, count threads a P n = p + d + 1 := ⟨count threads a P n - p - 1, by omega⟩
  induction d generalizing n with
  | zero => exact count_exists hd
  | succ d ih =>
    obtain ⟨z, r, hz, -, -, hc⟩ := count_exists (k := p + d + 1) (by omega)
    obtain ⟨y, r', hy, h1⟩ := ih (n := z) (by omega) hc
    exact ⟨y, r', by omega, h1⟩

/-- What has been read is what the writer had left when it had changed `seq` as often as the reader has seen. -/
theorem snapshot (h : Run Releasing c0 v0 threads seq word K P) {t l l' : Nat} {x : Nat → Nat} {v : (i : Nat) → BitVec (D.C (word i)).w}
    (hr : Reads threads seq word K t l x l' v) :
    ∃ n p r, eventAt threads t l = some (.num seq r) ∧ r.acc = .read p ∧ count threads seq P n = p ∧ p % 2 = 0 ∧
      (∃ r', eventAt threads t l' = some (.num seq r') ∧ r'.acc = .read p) ∧
      (∀ n', count threads seq P n' = p → n ≤ n') ∧
      ∀ i, i < K → v i = left (word i) (v0 (word i)) ((threads.getD P []).take n) := by
  obtain ⟨V, hV⟩ := single h.decls h.histories (a := seq) (t0 := P) fun t n r he => by
    rcases seqCalls h t n r he with h1 | ⟨h1, u, h2, -⟩
    · exact .inl h1
    · exact .inr ⟨h1, u, h2⟩
  obtain ⟨mo, u, acc, mo', acc', hll, e, hacq, heven, e', hfew⟩ := hr.first
  obtain ⟨p, hp, -, hz⟩ := hV.load t l _ e rfl
  obtain ⟨p', hp', -, -⟩ := hV.load t l' _ e' rfl
  simp only at hp hp'
  subst hp hp'
  have hle : p ≤ p' := h.consistent seq t l t l' _ _ e e' (.same _ _ _ _ _ e e' hll)
  have h1 := seqValue h hV e rfl rfl
  have h2 := seqValue h hV e' rfl rfl
  simp only [Option.some.injEq] at h1 h2
  have hfew' := hfew p p' rfl rfl
  have hpe : p' = p ∧ p % 2 = 0 := by
    obtain ⟨a1, a2⟩ := h1
    obtain ⟨b1, b2⟩ := h2
    rw [← a1] at a2
    rw [← b1, a2] at b2
    rw [a2] at heven
    have hM : 2 ∣ 2 ^ (D.C seq).w := dvd_pow_self 2 (by have := h.wide; omega)
    rw [Nat.mod_mod_of_dvd _ hM] at heven
    refine ⟨?_, heven⟩
    generalize 2 ^ (D.C seq).w = M at *
    obtain ⟨d, rfl⟩ : ∃ d, p' = p + d := ⟨p' - p, by omega⟩
    have hd : d < M := by omega
    have := (Nat.modEq_iff_dvd' (n := M) (by omega : p ≤ p + d)).mp b2
    rw [Nat.add_sub_cancel_left] at this
    have := Nat.eq_zero_of_dvd_of_lt this hd
    omega
  obtain ⟨rfl, hev⟩ := hpe
  obtain ⟨n, hn, hn0, hn'⟩ := reach hz
  have hmin : ∀ n', count threads seq P n' = p' → n ≤ n' := by
    intro n' hc
    refine Nat.le_of_not_lt fun hlt => ?_
    cases p' with
    | zero => have := hn0 rfl; omega
    | succ p =>
      obtain ⟨z, r, rfl, ez, hne, hcz⟩ := hn' p rfl
      have := count_mono (threads := threads) (a := seq) (t := P) (Nat.le_of_lt_succ hlt)
      omega
  refine ⟨n, p', _, e, rfl, hn, hev, ⟨_, e', rfl⟩, hmin, fun i hi => ?_⟩
  obtain ⟨hx1, hx2, mo2, acc2, ex, hacq2⟩ := hr.words i hi
  have hcalls := wordCalls h hi
  obtain ⟨W, hW⟩ := single h.decls h.histories (a := word i) (t0 := P) fun t n r he => by
    rcases hcalls t n r he with h1 | ⟨h1, h2, -⟩
    · exact .inl h1
    · exact .inr ⟨h1, h2⟩
  obtain ⟨q, hq, hres, hzs⟩ := hW.load t (x i) _ ex rfl
  simp only at hq hres
  subst hq
  rw [Option.some.injEq] at hres
  rw [hres, ← hW.left (fun n r he => by
    rcases hcalls P n r he with h1 | ⟨_, h2, -⟩
    · exact .inl h1
    · exact .inr h2) n]
  congr 1
  refine Nat.le_antisymm (Nat.le_of_not_lt fun hlt => ?_) (Nat.le_of_not_lt fun hlt => ?_)
  · -- the reader has seen a store of a later write, so it sees the beginning of that write
    obtain ⟨z, r, ez, hne, hc⟩ := hzs (q - 1) (by omega)
    have hnz : n ≤ z := Nat.le_of_not_lt fun hl => by
      have := count_change ez hne hl
      omega
    rcases hcalls P z r ez with hl | ⟨-, -, hodd, hrel⟩
    · exact hne hl
    have hm := count_mono (threads := threads) (a := seq) (t := P) hnz
    obtain ⟨y, r', hy, ey, hney, hcy⟩ := passed (threads := threads) (a := seq) (P := P) (p := p') (n := z) (by omega)
    have hs : HB threads P z t (x i) := hW.sync z r t (x i) _ ez hne hrel ex rfl hacq2 (by simp [hc]; omega)
    have hb : HB threads P y t l' := .trans _ _ _ _ _ _ (.same _ _ _ _ _ ey ez hy) (.trans _ _ _ _ _ _ hs (.same _ _ _ _ _ ex e' hx2))
    have := h.consistent seq _ _ _ _ _ _ ey e' hb
    rw [(hV.store y r' ey hney).1, hcy] at this
    exact Nat.lt_irrefl _ this
  · -- the reader has seen the end of the write, so it sees its stores
    obtain ⟨z, r, hzn, ez, hne, hc⟩ := passed (threads := threads) (a := word i) (P := P) (p := q) (n := n) hlt
    have hp0 : p' ≠ 0 := by
      intro h0
      have := hmin 0 (by simp [count, h0])
      omega
    obtain ⟨z0, r0, rfl, ez0, hne0, hc0⟩ := hn' (p' - 1) (by omega)
    have hne' : z ≠ z0 := by
      rintro rfl
      rw [ez] at ez0
      have := congrArg (fun e : Option (Event D δ) => match e with | some (.num a _) => some a | _ => none) ez0
      simp only [Option.some.injEq] at this
      exact h.apart i hi this
    rcases seqCalls h P z0 r0 ez0 with hl | ⟨-, u0, hst0, -, hrel⟩
    · exact hne0 hl
    have hs : HB threads P z0 t l := hV.sync z0 r0 t l _ ez0 hne0 (hrel (by omega)) e rfl hacq (by simp [hc0]; omega)
    have hb : HB threads P z t (x i) := .trans _ _ _ _ _ _ (.same _ _ _ _ _ ez ez0 (by omega))
      (.trans _ _ _ _ _ _ hs (.same _ _ _ _ _ e ex hx1))
    have := h.consistent (word i) _ _ _ _ _ _ ez ex hb
    rw [(hW.store z r ez hne).1, hc] at this
    exact Nat.lt_irrefl _ this

/-! ## Properties -/

/-- **C159, a sequence lock.** If a reader finds the same even number before and after it has read the words, all the words are what the
writer had left at one and the same point of its program, between two writes; it is not before a write whose end happens before the reader
begins. There may be any number of readers, words and writes, and the number may wrap around, if it does not go all the way round while a
reader reads. -/
theorem C159_snapshot (h : Run Releasing c0 v0 threads seq word K P) {t l l' : Nat} {x : Nat → Nat} {v : (i : Nat) → BitVec (D.C (word i)).w}
    (hr : Reads threads seq word K t l x l' v) :
    ∃ n, stores seq ((threads.getD P []).take n) % 2 = 0 ∧
      (∀ i, i < K → v i = left (word i) (v0 (word i)) ((threads.getD P []).take n)) ∧
      ∀ z r, eventAt threads P z = some (.num seq r) → r.call.1 ≠ .load → HB threads P z t l → z < n := by
  obtain ⟨V, hV⟩ := single h.decls h.histories (a := seq) (t0 := P) fun t n r he => by
    rcases seqCalls h t n r he with h1 | ⟨h1, u, h2, -⟩
    · exact .inl h1
    · exact .inr ⟨h1, u, h2⟩
  obtain ⟨n, p, r, e, hp, hc, hev, -, -, hv⟩ := snapshot h hr
  refine ⟨n, ?_, hv, fun z r' ez hne hb => ?_⟩
  · rw [← count_stores (fun n r he => ?_) n, hc, hev]
    rcases seqCalls h P n r he with h1 | ⟨-, u, h2, -⟩
    · exact .inl h1
    · exact .inr ⟨u, h2⟩
  · have := h.consistent seq _ _ _ _ _ _ ez e hb
    rw [(hV.store z r' ez hne).1, hp] at this
    refine Nat.lt_of_not_le fun hle => ?_
    have h2 := count_mono (threads := threads) (a := seq) (t := P) hle
    simp only [Coherent] at this
    omega

/-- **C159, readers do not go back.** If the end of one reading happens before another one begins, in the same thread or in another, the second
does not find the words of an earlier point. -/
theorem C159_monotone (h : Run Releasing c0 v0 threads seq word K P) {t l l' t₂ l₂ l₂' : Nat} {x x₂ : Nat → Nat}
    {v v₂ : (i : Nat) → BitVec (D.C (word i)).w} (hr : Reads threads seq word K t l x l' v) (hr₂ : Reads threads seq word K t₂ l₂ x₂ l₂' v₂)
    (hb : HB threads t l' t₂ l₂) :
    ∃ n n₂, n ≤ n₂ ∧ stores seq ((threads.getD P []).take n) % 2 = 0 ∧ stores seq ((threads.getD P []).take n₂) % 2 = 0 ∧
      ∀ i, i < K → v i = left (word i) (v0 (word i)) ((threads.getD P []).take n) ∧
        v₂ i = left (word i) (v0 (word i)) ((threads.getD P []).take n₂) := by
  have hst : ∀ n r, eventAt threads P n = some (.num seq r) → r.call.1 = .load ∨ ∃ u, r.call.1 = .store u ∨ r.call.1 = .assign u := by
    intro n r he
    rcases seqCalls h P n r he with h1 | ⟨-, u, h2, -⟩
    · exact .inl h1
    · exact .inr ⟨u, h2⟩
  obtain ⟨n, p, r, e, hp, hc, hev, ⟨r', e', hp'⟩, hmin, hv⟩ := snapshot h hr
  obtain ⟨n₂, p₂, r₂, e₂, hp₂, hc₂, hev₂, -, -, hv₂⟩ := snapshot h hr₂
  refine ⟨n, n₂, ?_, ?_, ?_, fun i hi => ⟨hv i hi, hv₂ i hi⟩⟩
  · have := h.consistent seq _ _ _ _ _ _ e' e₂ hb
    rw [hp', hp₂] at this
    simp only [Coherent] at this
    refine Nat.le_of_not_lt fun hlt => ?_
    have h2 := count_mono (threads := threads) (a := seq) (t := P) (Nat.le_of_lt hlt)
    have := hmin n₂ (by omega)
    omega
  · rw [← count_stores hst, hc, hev]
  · rw [← count_stores hst, hc₂, hev₂]

/-- **C159, few writes.** If the writer stores to `seq` less often than `seq` has values, a load of `seq` never finds it all the way round from
another one. -/
theorem C159_few (h : Run ord c0 v0 threads seq word K P) (hf : stores seq (threads.getD P []) < 2 ^ (D.C seq).w) {t l r p p'}
    (he : eventAt threads t l = some (.num seq r)) (hl : r.call.1 = .load) (hp : r.acc = .read p') : p' < p + 2 ^ (D.C seq).w := by
  obtain ⟨V, hV⟩ := single h.decls h.histories (a := seq) (t0 := P) fun t n r he => by
    rcases seqCalls h t n r he with h1 | ⟨h1, u, h2, -⟩
    · exact .inl h1
    · exact .inr ⟨h1, u, h2⟩
  have hst : ∀ n r, eventAt threads P n = some (.num seq r) → r.call.1 = .load ∨ ∃ u, r.call.1 = .store u ∨ r.call.1 = .assign u := by
    intro n r he
    rcases seqCalls h P n r he with h1 | ⟨-, u, h2, -⟩
    · exact .inl h1
    · exact .inr ⟨u, h2⟩
  obtain ⟨q, hq, -, hz⟩ := hV.load t l r he hl
  rw [hp] at hq; cases hq
  obtain ⟨n, hn, -, -⟩ := reach hz
  have h1 := count_stores hst (threads.getD P []).length
  rw [List.take_length] at h1
  have h2 : count threads seq P n ≤ count threads seq P (threads.getD P []).length := by
    unfold count
    rw [List.take_length]
    exact ((List.take_sublist _ _).filter _).length_le
  omega

end

/-! ## Examples -/

/-- Three atomics of eight bits: `seq` (`none`) and two words. -/
def lock : Decls Unit (Option Bool) := ⟨fun _ => 8, fun _ => 5, fun _ => ⟨8, 32, false, false⟩, .seqCst⟩

theorem lock_ok : lock.Ok :=
  ⟨fun _ => .inl rfl, fun _ => show 0 < 5 by decide, fun _ => show 5 ≤ 8 by decide, fun _ => show 8 ≤ 32 by decide⟩

def two (i : Nat) : Option Bool := some (i == 1)

/-- One write, which stores both words. -/
def writes (mo : MOrd) : List (Event lock Nat) :=
  [.num none ⟨(.store 1#8, some .relaxed), none, .write 0⟩, .num (some false) ⟨(.store 5#8, some mo), none, .write 0⟩,
    .num (some true) ⟨(.store 6#8, some mo), none, .write 0⟩, .num none ⟨(.assign 2#8, none), some 2#8, .write 1⟩]

/-- A reader that finds the numbers `s` and the words `x` and `y`. -/
def reads (s : Nat × BitVec 8) (x y : Nat × BitVec 8) : List (Event lock Nat) :=
  [.num none ⟨(.load, some .acquire), some s.2, .read s.1⟩, .num (some false) ⟨(.load, some .acquire), some x.2, .read x.1⟩,
    .num (some true) ⟨(.load, some .acquire), some y.2, .read y.1⟩, .num none ⟨(.load, some .relaxed), some s.2, .read s.1⟩]

/-- The reader comes before the write, and again after it. -/
def after : List (List (Event lock Nat)) := [writes .release, reads (0, 0#8) (0, 0#8) (0, 0#8) ++ reads (2, 2#8) (1, 5#8) (1, 6#8)]

/-- With `relaxed` stores, the reader sees one of the words and nothing else. -/
def torn : List (List (Event lock Nat)) := [writes .relaxed, reads (0, 0#8) (1, 5#8) (0, 0#8)]

theorem writes_runs {mo : MOrd} {ord : MOrd → Prop} (h : ord mo) : Runs ord none two 2 (writes mo) 2 := by
  show Runs ord none two 2 (((([] ++ [_]) ++ [_]) ++ [_]) ++ [_]) 2
  refine .step _ _ 1 _ (.step _ _ 1 _ (.step _ _ 1 _ (.step _ _ 0 _ .start ?_) ?_) ?_) ?_
  · exact .turn 0 _ 1#8 (.inl rfl) rfl (by simp)
  · exact .word 1 0 _ 5#8 (by decide) rfl (.inl rfl) h
  · exact .word 1 1 _ 6#8 (by decide) rfl (.inl rfl) h
  · exact .turn 1 _ 2#8 (.inr rfl) rfl fun _ => .inr (.inr rfl)

theorem reads_free {s x y : Nat × BitVec 8} {e : Event lock Nat} (h : e ∈ reads s x y) : Free none two 2 e := by
  constructor
  · rintro r rfl
    simp only [reads, List.mem_cons, List.not_mem_nil, or_false] at h
    rcases h with h | h | h | h <;> cases h <;> rfl
  · rintro i r - rfl
    simp only [reads, List.mem_cons, List.not_mem_nil, or_false] at h
    rcases h with h | h | h | h
    · cases h
    · generalize two i = a at r h
      cases h; rfl
    · generalize two i = a at r h
      cases h; rfl
    · cases h

theorem after_histories : Histories (fun _ => 0#8) (fun _ => 0#8) after := by
  refine ⟨fun | () => ⟨0, fun _ => 0#8, .of_rules rfl ?_ ?_⟩, fun
    | none => ⟨2, fun n => [0#32, 1#32, 2#32].getD n 0#32, .of_rules rfl ?_ ?_⟩
    | some false => ⟨1, fun n => [0#32, 5#32].getD n 0#32, .of_rules rfl ?_ ?_⟩
    | some true => ⟨1, fun n => [0#32, 6#32].getD n 0#32, .of_rules rfl ?_ ?_⟩⟩
  · intro rs hrs r hr
    fin_cases hrs <;> simp [Event.bits?, writes, reads] at hr
  · decide
  · intro rs hrs r hr
    fin_cases hrs <;> fin_cases hr
    · exact ⟨_, _, _, _, rfl, rfl, .inr ⟨by decide, 0, rfl, rfl⟩⟩
    · exact ⟨_, _, _, _, rfl, rfl, .inr ⟨by decide, 1, rfl, rfl⟩⟩
    · exact ⟨_, _, _, _, rfl, rfl, .inl ⟨rfl, 0, rfl⟩⟩
    · exact ⟨_, _, _, _, rfl, rfl, .inl ⟨rfl, 0, rfl⟩⟩
    · exact ⟨_, _, _, _, rfl, rfl, .inl ⟨rfl, 2, rfl⟩⟩
    · exact ⟨_, _, _, _, rfl, rfl, .inl ⟨rfl, 2, rfl⟩⟩
  · decide
  · intro rs hrs r hr
    fin_cases hrs <;> fin_cases hr
    · exact ⟨_, _, _, _, rfl, rfl, .inr ⟨by decide, 0, rfl, rfl⟩⟩
    · exact ⟨_, _, _, _, rfl, rfl, .inl ⟨rfl, 0, rfl⟩⟩
    · exact ⟨_, _, _, _, rfl, rfl, .inl ⟨rfl, 1, rfl⟩⟩
  · decide
  · intro rs hrs r hr
    fin_cases hrs <;> fin_cases hr
    · exact ⟨_, _, _, _, rfl, rfl, .inr ⟨by decide, 0, rfl, rfl⟩⟩
    · exact ⟨_, _, _, _, rfl, rfl, .inl ⟨rfl, 0, rfl⟩⟩
    · exact ⟨_, _, _, _, rfl, rfl, .inl ⟨rfl, 1, rfl⟩⟩
  · decide

theorem torn_histories : Histories (fun _ => 0#8) (fun _ => 0#8) torn := by
  refine ⟨fun | () => ⟨0, fun _ => 0#8, .of_rules rfl ?_ ?_⟩, fun
    | none => ⟨2, fun n => [0#32, 1#32, 2#32].getD n 0#32, .of_rules rfl ?_ ?_⟩
    | some false => ⟨1, fun n => [0#32, 5#32].getD n 0#32, .of_rules rfl ?_ ?_⟩
    | some true => ⟨1, fun n => [0#32, 6#32].getD n 0#32, .of_rules rfl ?_ ?_⟩⟩
  · intro rs hrs r hr
    fin_cases hrs <;> simp [Event.bits?, writes, reads] at hr
  · decide
  · intro rs hrs r hr
    fin_cases hrs <;> fin_cases hr
    · exact ⟨_, _, _, _, rfl, rfl, .inr ⟨by decide, 0, rfl, rfl⟩⟩
    · exact ⟨_, _, _, _, rfl, rfl, .inr ⟨by decide, 1, rfl, rfl⟩⟩
    · exact ⟨_, _, _, _, rfl, rfl, .inl ⟨rfl, 0, rfl⟩⟩
    · exact ⟨_, _, _, _, rfl, rfl, .inl ⟨rfl, 0, rfl⟩⟩
  · decide
  · intro rs hrs r hr
    fin_cases hrs <;> fin_cases hr
    · exact ⟨_, _, _, _, rfl, rfl, .inr ⟨by decide, 0, rfl, rfl⟩⟩
    · exact ⟨_, _, _, _, rfl, rfl, .inl ⟨rfl, 1, rfl⟩⟩
  · decide
  · intro rs hrs r hr
    fin_cases hrs <;> fin_cases hr
    · exact ⟨_, _, _, _, rfl, rfl, .inr ⟨by decide, 0, rfl, rfl⟩⟩
    · exact ⟨_, _, _, _, rfl, rfl, .inl ⟨rfl, 0, rfl⟩⟩
  · decide

theorem torn_hb {t n t' n' : Nat} (h : HB torn t n t' n') : t = t' ∧ n < n' := by
  induction h with
  | same _ _ _ _ _ _ _ hn => exact ⟨rfl, hn⟩
  | bits k t n t' n' q q' h h' hs =>
    match t, n with
    | 0, 0 | 0, 1 | 0, 2 | 0, 3 | 1, 0 | 1, 1 | 1, 2 | 1, 3 => cases h
    | 0, _ + 4 | 1, _ + 4 => cases h
    | _ + 2, _ => simp [eventAt, torn] at h
  | num a t n t' n' q q' h h' hs =>
    exfalso
    obtain ⟨r, r', _, _, _, _, _, _, _, _, j, h1, h2, h3, h3', _, h5, hk, _, h6, h7, _⟩ := hs
    generalize before (Event.num? a) torn t n = p at h1
    generalize before (Event.num? a) torn t' n' = p' at h2
    match a, t, p with
    | none, 0, 0 => cases h1; cases h3; cases h5
    | none, 0, 1 =>
      cases h1; cases h6
      match t', p' with
      | 0, 0 => cases h2; cases h3'; exact hk rfl
      | 0, 1 => cases h2; cases h3'; exact hk rfl
      | 0, _ + 2 => cases h2
      | 1, 0 => cases h2; simp [Acc.pos] at h7
      | 1, 1 => cases h2; simp [Acc.pos] at h7
      | 1, _ + 2 => cases h2
      | _ + 2, _ => simp [callAt, part, torn] at h2
    | some false, 0, 0 => cases h1; cases h3; cases h5
    | some true, 0, 0 => cases h1; cases h3; cases h5
    | none, 1, 0 => cases h1; cases h6
    | none, 1, 1 => cases h1; cases h6
    | some false, 1, 0 => cases h1; cases h6
    | some true, 1, 0 => cases h1; cases h6
    | none, 0, _ + 2 => cases h1
    | none, 1, _ + 2 => cases h1
    | some false, 0, _ + 1 => cases h1
    | some false, 1, _ + 1 => cases h1
    | some true, 0, _ + 1 => cases h1
    | some true, 1, _ + 1 => cases h1
    | _, _ + 2, _ => simp [callAt, part, torn] at h1
  | trans _ _ _ _ _ _ _ _ ih ih' => exact ⟨ih.1.trans ih'.1, ih.2.trans ih'.2⟩

theorem after_hb {t n t' n' : Nat} (h : HB after t n t' n') : t = t' ∧ n < n' ∨ t = 0 ∧ t' = 1 ∧ 4 ≤ n' := by
  induction h with
  | same _ _ _ _ _ _ _ hn => exact .inl ⟨rfl, hn⟩
  | bits k t n t' n' q q' h h' hs =>
    match t, n with
    | 0, 0 | 0, 1 | 0, 2 | 0, 3 | 1, 0 | 1, 1 | 1, 2 | 1, 3 | 1, 4 | 1, 5 | 1, 6 | 1, 7 => cases h
    | 0, _ + 4 | 1, _ + 8 => cases h
    | _ + 2, _ => simp [eventAt, after] at h
  | num a t n t' n' q q' h h' hs =>
    obtain ⟨r, r', _, _, _, _, _, _, _, _, j, h1, h2, h3, h3', _, h5, hk, _, h6, h7, _⟩ := hs
    rw [part_callAt h (num?_eq a _), Option.some.injEq] at h1
    rw [part_callAt h' (num?_eq a _), Option.some.injEq] at h2
    subst h1 h2
    have ht : t = 0 := by
      match t, n with
      | 0, _ => rfl
      | 1, 0 | 1, 1 | 1, 2 | 1, 3 | 1, 4 | 1, 5 | 1, 6 | 1, 7 => cases h; cases h6
      | 1, _ + 8 => cases h
      | _ + 2, _ => simp [eventAt, after] at h
    have ht' : t' = 1 ∧ 4 ≤ n' := by
      match t', n' with
      | 1, 0 | 1, 1 | 1, 2 | 1, 3 => cases h'; simp [Acc.pos] at h7
      | 1, _ + 4 => exact ⟨rfl, by omega⟩
      | 0, 0 | 0, 1 | 0, 2 | 0, 3 => cases h'; cases h3'; exact absurd rfl hk
      | 0, _ + 4 => cases h'
      | _ + 2, _ => simp [eventAt, after] at h'
    exact .inr ⟨ht, ht'⟩
  | trans _ _ _ _ _ _ _ _ ih ih' => omega

theorem torn_run : Run (fun o => o = .relaxed) (fun _ => 0#8) (fun _ => 0#8) torn none two 2 0 where
  decls := lock_ok
  histories := torn_histories
  consistent := by
    intro a t n t' n' r r' h h' hb
    obtain ⟨rfl, hn⟩ := torn_hb hb
    obtain ⟨m, val, hh⟩ := torn_histories.num a
    exact hh.ordered (part_callAt h (num?_eq a _)) (part_callAt h' (num?_eq a _)) (before_lt h (num?_eq a _) hn)
  zero := rfl
  wide := show 0 < 8 by decide
  apart := fun i _ => by simp [two]
  differ := fun i j hi hj h => by
    match i, j with
    | 0, 0 | 1, 1 => rfl
    | 0, 1 | 1, 0 => simp [two] at h
    | _ + 2, _ => omega
    | _, _ + 2 => omega
  writer := ⟨2, writes_runs rfl⟩
  readers := fun t n e ht h => by
    match t with
    | 0 => exact absurd rfl ht
    | 1 => exact reads_free (List.mem_of_getElem? h)
    | _ + 2 => simp [eventAt, torn] at h

theorem after_run : Run Releasing (fun _ => 0#8) (fun _ => 0#8) after none two 2 0 where
  decls := lock_ok
  histories := after_histories
  consistent := by
    intro a t n t' n' r r' h h' hb
    rcases after_hb hb with ⟨rfl, hn⟩ | ⟨rfl, rfl, hn⟩
    · obtain ⟨m, val, hh⟩ := after_histories.num a
      exact hh.ordered (part_callAt h (num?_eq a _)) (part_callAt h' (num?_eq a _)) (before_lt h (num?_eq a _) hn)
    · match n, n' with
      | 0, 4 | 0, 7 | 3, 4 | 3, 7 | 1, 5 | 2, 6 => cases h; cases h'; decide
      | 0, 5 | 0, 6 | 3, 5 | 3, 6 | 1, 4 | 1, 6 | 1, 7 | 2, 4 | 2, 5 | 2, 7 => cases h; cases h'
      | _, 0 | _, 1 | _, 2 | _, 3 => omega
      | _ + 4, _ => cases h
      | _, _ + 8 => cases h'
  zero := rfl
  wide := show 0 < 8 by decide
  apart := fun i _ => by simp [two]
  differ := torn_run.differ
  writer := ⟨2, writes_runs (.inl rfl)⟩
  readers := fun t n e ht h => by
    match t with
    | 0 => exact absurd rfl ht
    | 1 => exact (List.mem_append.mp (List.mem_of_getElem? h)).elim reads_free reads_free
    | _ + 2 => simp [eventAt, after] at h

theorem after_reads : Reads after none two 2 1 4 (fun i => i + 5) 7 (fun i => if i = 0 then 5#8 else 6#8) where
  first := ⟨_, 2#8, _, _, _, by decide, rfl, .inr ⟨_, rfl, .inl rfl⟩, rfl, rfl, by
    rintro p p' ⟨⟩ ⟨⟩
    exact show 2 < 2 + 2 ^ 8 by decide⟩
  words := fun i hi => by
    match i with
    | 0 => exact ⟨by decide, by decide, _, _, rfl, .inr ⟨_, rfl, .inl rfl⟩⟩
    | 1 => exact ⟨by decide, by decide, _, _, rfl, .inr ⟨_, rfl, .inl rfl⟩⟩
    | _ + 2 => omega

theorem after_reads₀ : Reads after none two 2 1 0 (fun i => i + 1) 3 (fun _ => 0#8) where
  first := ⟨_, 0#8, _, _, _, by decide, rfl, .inr ⟨_, rfl, .inl rfl⟩, rfl, rfl, by
    rintro p p' ⟨⟩ ⟨⟩
    exact show 0 < 0 + 2 ^ 8 by decide⟩
  words := fun i hi => by
    match i with
    | 0 => exact ⟨by decide, by decide, _, _, rfl, .inr ⟨_, rfl, .inl rfl⟩⟩
    | 1 => exact ⟨by decide, by decide, _, _, rfl, .inr ⟨_, rfl, .inl rfl⟩⟩
    | _ + 2 => omega

example : ∃ n, stores none ((after.getD 0 []).take n) % 2 = 0 ∧
    (∀ i, i < 2 → (if i = 0 then 5#8 else 6#8) = left (two i) 0#8 ((after.getD 0 []).take n)) ∧
    ∀ z r, eventAt after 0 z = some (.num none r) → r.call.1 ≠ .load → HB after 0 z 1 4 → z < n :=
  C159_snapshot after_run after_reads

example : ∃ n n₂, n ≤ n₂ ∧ stores none ((after.getD 0 []).take n) % 2 = 0 ∧ stores none ((after.getD 0 []).take n₂) % 2 = 0 ∧
    ∀ i, i < 2 → 0#8 = left (two i) 0#8 ((after.getD 0 []).take n) ∧
      (if i = 0 then 5#8 else 6#8) = left (two i) 0#8 ((after.getD 0 []).take n₂) :=
  C159_monotone after_run after_reads₀ after_reads (.same 1 3 4 _ _ rfl rfl (by decide))

example : left (two 1) 0#8 ((after.getD 0 []).take 4) = 6#8 ∧ stores none ((after.getD 0 []).take 4) = 2 := ⟨rfl, rfl⟩

example {p p' : Nat} (h : p' = 2) : p' < p + 2 ^ 8 :=
  C159_few after_run (show 2 < 2 ^ 8 by decide) (t := 1) (l := 4) rfl rfl (by rw [h])

/-- **C159, the orders matter.** If the writer stores the words with `relaxed` order, there is an execution in which a reader finds the
same even number twice and words that the writer had left at no point of its program. -/
theorem C159_relaxed_fails : ∃ threads : List (List (Event lock Nat)), ∃ x v,
    Run (fun o => o = .relaxed) (fun _ => 0#8) (fun _ => 0#8) threads none two 2 0 ∧ Reads threads none two 2 1 0 x 3 v ∧
    ¬ ∃ n, stores none ((threads.getD 0 []).take n) % 2 = 0 ∧
      ∀ i, i < 2 → v i = left (two i) 0#8 ((threads.getD 0 []).take n) := by
  refine ⟨torn, fun i => i + 1, fun i => if i = 0 then 5#8 else 0#8, torn_run, ⟨⟨_, 0#8, _, _, _, by decide, rfl, .inr ⟨_, rfl, .inl rfl⟩, rfl,
    rfl, ?_⟩, fun i hi => ?_⟩, ?_⟩
  · rintro p p' ⟨⟩ ⟨⟩
    exact show 0 < 0 + 2 ^ 8 by decide
  · match i with
    | 0 => exact ⟨by decide, by decide, _, _, rfl, .inr ⟨_, rfl, .inl rfl⟩⟩
    | 1 => exact ⟨by decide, by decide, _, _, rfl, .inr ⟨_, rfl, .inl rfl⟩⟩
    | _ + 2 => omega
  · rintro ⟨n, hn, h⟩
    match n with
    | 0 => exact absurd (h 0 (by decide)) (by decide)
    | 1 | 2 | 3 => exact absurd hn (by decide)
    | n + 4 =>
      have : (torn.getD 0 []).take (n + 4) = torn.getD 0 [] := List.take_of_length_le (by simp [torn, writes])
      rw [this] at h
      exact absurd (h 1 (by decide)) (by decide)

end Verif.Seqlock
