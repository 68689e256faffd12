import Verif.Ring.Model
import Verif.Channel.PropsChannel

/-!
# Properties of a ring without locks (C154)
-/

namespace Verif.Ring

open Verif.Sync Verif.Conc
open Channel (Plain Before IsOp result)

variable {κ γ δ : Type} {D : Decls κ γ} [DecidableEq κ] [DecidableEq γ] {α : Type}

/-! ## Specification -/

/-- A call that changes the counter. -/
def changes (a : γ) (e : Event D δ) : Bool := match e.num? a with
  | some r => match r.call.1 with
    | .load => false
    | _ => true
  | none => false

/-- How often thread `t` has changed the counter before its event `n`: the number of values it has sent, or received, by then. -/
def count (threads : List (List (Event D δ))) (a : γ) (t n : Nat) : Nat := (((threads.getD t []).take n).filter (changes a)).length

/-- Thread `t` has used a place. -/
def IsAccess (threads : List (List (Event D δ))) (N : Nat) (slot : Nat → δ) (t n : Nat) : Prop :=
  ∃ i m, i < N ∧ eventAt threads t n = some (.plain (slot i) m)

/-! ## Lemmas -/

theorem changes_num {a : γ} {r : Rec (ACall (D.C a)) (Option (BitVec (D.C a).w))} :
    changes a (Event.num a r : Event D δ) = true ↔ r.call.1 ≠ .load := by
  unfold changes
  rw [num?_eq]
  dsimp only
  split
  · rename_i h; simp [h]
  · rename_i h; simp; exact h

theorem count_mono {threads : List (List (Event D δ))} {a : γ} {t n n' : Nat} (h : n ≤ n') : count threads a t n ≤ count threads a t n' := by
  unfold count
  have e : (threads.getD t []).take n = ((threads.getD t []).take n').take n := by rw [List.take_take]; congr 1; omega
  rw [e]
  exact ((List.take_sublist _ _).filter _).length_le

theorem event_getD {ε : Type} {threads : List (List ε)} {t n : Nat} : eventAt threads t n = (threads.getD t [])[n]? := by
  unfold eventAt
  cases h : threads[t]? <;> simp [List.getD, h]

theorem count_succ {threads : List (List (Event D δ))} {a : γ} {t n : Nat} {e : Event D δ} (h : eventAt threads t n = some e) :
    count threads a t (n + 1) = count threads a t n + if changes a e then 1 else 0 := by
  rw [event_getD] at h
  unfold count
  rw [List.take_add_one, h]
  cases hc : changes a e <;> simp [hc]

theorem count_none {threads : List (List (Event D δ))} {a : γ} {t n : Nat} (h : eventAt threads t n = none) :
    count threads a t (n + 1) = count threads a t n := by
  rw [event_getD] at h
  unfold count
  rw [List.take_add_one, h]
  simp

theorem count_change {threads : List (List (Event D δ))} {a : γ} {t n n' : Nat} {r : Rec (ACall (D.C a)) (Option (BitVec (D.C a).w))}
    (h : eventAt threads t n = some (.num a r)) (hc : r.call.1 ≠ .load) (hn : n < n') : count threads a t n + 1 ≤ count threads a t n' := by
  have := count_succ (a := a) h
  rw [if_pos (changes_num.mpr hc)] at this
  rw [← this]
  exact count_mono hn

theorem count_same {threads : List (List (Event D δ))} {a : γ} {t x y : Nat} (hxy : x ≤ y) (h : Same threads a t x y) :
    count threads a t x = count threads a t y := by
  induction y with
  | zero => congr 1; omega
  | succ y ih =>
    by_cases hx : x = y + 1
    · rw [hx]
    · rw [ih (by omega) fun z q h1 h2 h3 => h z q h1 (by omega) h3]
      cases he : eventAt threads t y with
      | none => rw [count_none he]
      | some e =>
        rw [count_succ he]
        cases hc : changes a e with
        | false => simp
        | true =>
          exfalso
          have : ∃ r, e = .num a r := by
            unfold changes at hc
            split at hc
            · rename_i r hr; exact ⟨r, num?_some hr⟩
            · cases hc
          obtain ⟨r, rfl⟩ := this
          exact changes_num.mp hc (h y r (by omega) (by omega) he)

theorem same_of_count {threads : List (List (Event D δ))} {a : γ} {t x y : Nat}
    (h : count threads a t x = count threads a t y) : Same threads a t x y := by
  intro z q h1 h2 hq
  refine Classical.byContradiction fun hc => ?_
  have h3 := count_change hq hc h2
  have h4 := count_mono (threads := threads) (a := a) (t := t) h1
  omega

theorem difference {w N p : Nat} (hN : N < 2 ^ w) : ((p + N) % 2 ^ w + 2 ^ w - p % 2 ^ w) % 2 ^ w = N := by
  generalize hM : 2 ^ w = M at *
  have h1 := Nat.mod_lt p (show 0 < M by omega)
  have h2 := Nat.div_add_mod p M
  generalize p % M = b at *
  have h3 : (p + N) % M = (b + N) % M := by rw [← h2, Nat.add_assoc, Nat.mul_add_mod]
  rw [h3]
  by_cases h4 : b + N < M
  · rw [Nat.mod_eq_of_lt h4, show b + N + M - b = N + M by omega, Nat.add_mod_right, Nat.mod_eq_of_lt hN]
  · have h5 : (b + N) % M = b + N - M := by rw [Nat.mod_eq_sub_mod (by omega), Nat.mod_eq_of_lt (by omega)]
    rw [h5, show b + N - M + M - b = N by omega, Nat.mod_eq_of_lt hN]

/-- What is known of a counter that only one thread changes. -/
structure Counter (threads : List (List (Event D δ))) (w : Nat) (a : γ) (t0 : Nat) : Prop where
  /-- A load tells how many changes it sees, modulo `2 ^ w`; each of them has happened, and the last one before, if the load acquires. -/
  load : ∀ t l mo u acc, eventAt threads t l = some (.num a ⟨(.load, mo), some u, acc⟩) → ∃ p, acc = .read p ∧ u.toNat = p % 2 ^ w ∧
    (t = t0 → p = count threads a t0 l) ∧
    (∀ q, q < p → ∃ z r, eventAt threads t0 z = some (.num a r) ∧ r.call.1 ≠ .load ∧ count threads a t0 z = q) ∧
    ((mo = none ∨ ∃ o, mo = some o ∧ Acquiring o) → ∀ q, p = q + 1 →
      ∃ z r, eventAt threads t0 z = some (.num a r) ∧ r.call.1 ≠ .load ∧ count threads a t0 z = q ∧ HB threads t0 z t l)
  mono : ∀ t l l' r r' p p', eventAt threads t l = some (.num a r) → eventAt threads t l' = some (.num a r') → r.acc = .read p →
    r'.acc = .read p' → l ≤ l' → p ≤ p'

theorem counter {c0 : (k : κ) → BitVec (D.w k)} {v0 : (a : γ) → BitVec (D.C a).w} (hD : D.Ok) {threads : List (List (Event D δ))}
    (hx : Histories c0 v0 threads) {w : Nat} {mine other : γ} (hw : (D.C mine).w = w) (h0 : v0 mine = 0#_) {t0 : Nat} {ok : Nat → Nat → Prop}
    (hu : ∀ t n r, eventAt threads t n = some (.num mine r) → CounterCall threads w mine other t0 ok t n r) :
    Counter threads w mine t0 := by
  obtain ⟨m, val, hh⟩ := hx.num mine
  have call : ∀ {t n r}, eventAt threads t n = some (.num mine r) →
      callAt (part (Event.num? mine) threads) t (before (Event.num? mine) threads t n) = some r := fun h => part_callAt h (num?_eq mine _)
  have does : ∀ {t n r}, eventAt threads t n = some (.num mine r) → Does (aimpl (D.C mine) D.dflt) val r := by
    intro t n r h
    obtain ⟨rs, h1, h2⟩ := callAt_mem (call h)
    exact hh.does rs h1 r h2
  have ordered : ∀ {t n n' r r'}, eventAt threads t n = some (.num mine r) → eventAt threads t n' = some (.num mine r') → n < n' →
      Coherent r.acc r'.acc := fun h h' hn => hh.ordered (call h) (call h') (before_lt h (num?_eq mine _) hn)
  have stores : ∀ {t n r}, eventAt threads t n = some (.num mine r) → r.call.1 ≠ .load → t = t0 ∧ ∃ j, r.acc = .write j ∧ j < m := by
    intro t n r h hne
    rcases hu t n r h with hl | ⟨rfl, v, u, -, -, hst, -⟩
    · exact absurd hl hne
    · obtain ⟨j, _, _, hj, _⟩ := store_does hst (does h)
      obtain ⟨rs, hm1, hm2⟩ := callAt_mem (call h)
      exact ⟨rfl, j, hj, (hh.bounded rs hm1 r hm2).1 j hj⟩
  have writer : ∀ j, j < m → ∃ n r, eventAt threads t0 n = some (.num mine r) ∧ r.call.1 ≠ .load ∧ r.acc = .write j := by
    intro j hj
    obtain ⟨u, c, q, hq, hqa⟩ := hh.writer j hj
    obtain ⟨b, e, e1, e2, -⟩ := callAt_part hq
    rw [num?_some e2] at e1
    have hne : q.call.1 ≠ .load := by
      intro hl
      obtain ⟨p, _, _, hp, _⟩ := load_does hl (does e1)
      rw [hqa] at hp; cases hp
    obtain ⟨rfl, _⟩ := stores e1 hne
    exact ⟨b, q, e1, hne, hqa⟩
  -- the changes in order
  have counted : ∀ j, ∀ n r, eventAt threads t0 n = some (.num mine r) → r.acc = .write j → count threads mine t0 n = j := by
    intro j
    induction j with
    | zero =>
      intro n r h hj
      have : Same threads mine t0 0 n := by
        intro z q _ hz hq
        refine Classical.byContradiction fun hne => ?_
        obtain ⟨_, i, hi, _⟩ := stores hq hne
        have := ordered hq h hz
        rw [hi, hj] at this
        simp [Coherent] at this
      rw [← count_same (Nat.zero_le n) this]
      simp [count]
    | succ j ih =>
      intro n r h hj
      obtain ⟨rs, hm1, hm2⟩ := callAt_mem (call h)
      have hjm := (hh.bounded rs hm1 r hm2).1 _ hj
      obtain ⟨n', r', h', hne', hj'⟩ := writer j (by omega)
      have hlt : n' < n := by
        rcases Nat.lt_trichotomy n' n with hl | rfl | hl
        · exact hl
        · rw [h] at h'; cases h'; rw [hj] at hj'; cases hj'
        · have := ordered h h' hl
          rw [hj, hj'] at this
          simp only [Coherent] at this
          omega
      have hs : Same threads mine t0 (n' + 1) n := by
        intro z q hz hz' hq
        refine Classical.byContradiction fun hne => ?_
        obtain ⟨_, i, hi, _⟩ := stores hq hne
        have h1 := ordered hq h hz'
        have h2 := ordered h' hq hz
        rw [hi, hj] at h1
        rw [hj', hi] at h2
        simp only [Coherent] at h1 h2
        omega
      rw [← count_same (by omega) hs, count_succ h', if_pos (changes_num.mpr hne'), ih n' r' h' hj']
  have writerCount : ∀ j, j < m → ∃ n r, eventAt threads t0 n = some (.num mine r) ∧ r.call.1 ≠ .load ∧ r.acc = .write j ∧
      count threads mine t0 n = j := fun j hj =>
    let ⟨n, r, h1, h2, h3⟩ := writer j hj
    ⟨n, r, h1, h2, h3, counted j n r h1 h3⟩
  have own : ∀ {n r p}, eventAt threads t0 n = some (.num mine r) → r.acc = .read p → p = count threads mine t0 n := by
    intro n r p h hp
    have hpm : p ≤ m := by have := hh.pos_le (call h); rwa [hp] at this
    have h1 : p ≤ count threads mine t0 n := by
      cases p with
      | zero => omega
      | succ p =>
        obtain ⟨n', r', h', hne', hj', hc'⟩ := writerCount p (by omega)
        have hlt : n' < n := by
          rcases Nat.lt_trichotomy n' n with hl | rfl | hl
          · exact hl
          · rw [h] at h'; cases h'; rw [hp] at hj'; cases hj'
          · have := ordered h h' hl
            rw [hp, hj'] at this
            simp only [Coherent] at this
            omega
        have := count_change h' hne' hlt
        omega
    refine Nat.le_antisymm h1 (Nat.le_of_not_lt fun hlt => ?_)
    -- the change number `p` comes later, so there is none of that many before
    by_cases hpm' : p < m
    · obtain ⟨n', r', h', hne', hj', hc'⟩ := writerCount p hpm'
      have hlt' : n' < n := by
        refine Classical.byContradiction fun hge => ?_
        have := count_mono (threads := threads) (a := mine) (t := t0) (Nat.le_of_not_lt hge)
        omega
      have := ordered h' h hlt'
      rw [hj', hp] at this
      simp only [Coherent] at this
      omega
    · -- all changes are seen, and there are not more
      have hle : ∀ n, count threads mine t0 n ≤ m := by
        intro n
        induction n with
        | zero => simp [count]
        | succ n ih =>
          cases he : eventAt threads t0 n with
          | none => rw [count_none he]; exact ih
          | some e =>
            rw [count_succ he]
            cases hc : changes mine e with
            | false => simpa using ih
            | true =>
              have : ∃ r, e = .num mine r := by
                unfold changes at hc
                split at hc
                · rename_i r hr; exact ⟨r, num?_some hr⟩
                · cases hc
              obtain ⟨r', rfl⟩ := this
              obtain ⟨_, j, hj, hjm⟩ := stores he (changes_num.mp hc)
              have := counted j n r' he hj
              simp only [if_true]
              omega
      have := hle n
      omega
  have values : ∀ p, p ≤ m → (Atomic.narrow (D.C mine) (val p)).toNat = p % 2 ^ w := by
    intro p
    induction p with
    | zero =>
      intro _
      rw [hh.initial, Atomic.init, Atomic.narrow, Atomic.narrow_widen (hD.elem mine), h0]
      simp
    | succ p ih =>
      intro hp
      obtain ⟨n, r, h1, h2, h3, h4⟩ := writerCount p (by omega)
      rcases hu t0 n r h1 with hl | ⟨-, v, u, hask, hv, hst, -⟩
      · exact absurd hl h2
      · obtain ⟨l0, mo0, v', acc0, l, mo, u', acc, hl0, _, e0, _, _, hv', _, hs0, _⟩ := hask
        obtain ⟨j, _, _, hj, hval, _⟩ := store_does hst (does h1)
        rw [h3] at hj; cases hj
        obtain ⟨p0, _, _, hp0, hres, _⟩ := load_does rfl (does e0)
        simp only at hp0 hres
        have hown := own e0 hp0
        rw [count_same (Nat.le_of_lt hl0) hs0, h4] at hown
        subst hown
        rw [Option.some.injEq] at hres
        have := ih (by omega)
        rw [← hres, hv'] at this
        rw [hval, Atomic.narrow, Atomic.narrow_widen (hD.elem mine), hv, this, Nat.mod_add_mod]
  constructor
  · intro t l mo u acc h
    obtain ⟨p, f, c, hp, hres, e1⟩ := load_does rfl (does h)
    simp only at hp hres
    subst hp
    have hpm : p ≤ m := hh.pos_le (call h)
    refine ⟨p, rfl, ?_, fun ht => ?_, fun q hq => ?_, fun hacq q hq => ?_⟩
    · rw [Option.some.injEq] at hres
      rw [hres, values p hpm]
    · subst ht; exact own h rfl
    · obtain ⟨n, r, h1, h2, h3, h4⟩ := writerCount q (by omega)
      exact ⟨n, r, h1, h2, h4⟩
    · subst hq
      obtain ⟨n, r, h1, h2, h3, h4⟩ := writerCount q (by omega)
      refine ⟨n, r, h1, h2, h4, .num mine t0 n t l _ _ h1 h ?_⟩
      rcases hu t0 n r h1 with hl | ⟨-, v, u', _, _, hst, hrel⟩
      · exact absurd hl h2
      obtain ⟨j, f', c', hj, _, e2⟩ := store_does hst (does h1)
      refine ⟨r, _, _, _, _, _, _, _, _, _, q, call h1, call h, e2, e1, by decide, hrel.releases, by decide, ?_, h3, by simp [Acc.pos], ?_⟩
      · rcases hacq with rfl | ⟨o, rfl, ha⟩
        · rfl
        · exact ha.acquires
      · intro i hi1 hi2
        simp only [Acc.pos] at hi2
        omega
  · intro t l l' r r' p p' h h' hp hp' hl
    rcases Nat.lt_or_eq_of_le hl with hl | rfl
    · have := ordered h h' hl
      rw [hp, hp'] at this
      exact this
    · rw [h] at h'; cases h'; rw [hp] at hp'; cases hp'; omega

theorem count_exists {threads : List (List (Event D δ))} {a : γ} {t k n : Nat} (h : count threads a t n = k + 1) :
    ∃ z r, z < n ∧ eventAt threads t z = some (.num a r) ∧ r.call.1 ≠ .load ∧ count threads a t z = k := by
  induction n with
  | zero => simp [count] at h
  | succ n ih =>
    cases he : eventAt threads t n with
    | none =>
      rw [count_none he] at h
      obtain ⟨z, r, hz, h1⟩ := ih h
      exact ⟨z, r, by omega, h1⟩
    | some e =>
      have hs := count_succ (a := a) he
      cases hc : changes a e with
      | false =>
        rw [hc] at hs
        obtain ⟨z, r, hz, h1⟩ := ih (by simpa [h] using hs.symm)
        exact ⟨z, r, by omega, h1⟩
      | true =>
        have : ∃ r, e = .num a r := by
          unfold changes at hc
          split at hc
          · rename_i r hr; exact ⟨r, num?_some hr⟩
          · cases hc
        obtain ⟨r, rfl⟩ := this
        rw [hc, if_pos rfl] at hs
        exact ⟨n, r, by omega, he, changes_num.mp hc, by omega⟩

section

variable {c0 : (k : κ) → BitVec (D.w k)} {v0 : (a : γ) → BitVec (D.C a).w} {threads : List (List (Event D δ))} {w N : Nat} {tail head : γ}
  {P C : Nat} {slot : Nat → δ}

theorem tailCounter (h : Run c0 v0 threads w N tail head P C slot) : Counter threads w tail P :=
  counter h.decls h.histories h.tailWidth h.tailZero h.use.tailCalls

theorem headCounter (h : Run c0 v0 threads w N tail head P C slot) : Counter threads w head C :=
  counter h.decls h.histories h.headWidth h.headZero h.use.headCalls

/-- What a thread knows that has asked. -/
theorem asked_counts {mine other : γ} {t t' n v : Nat} {ok : Nat → Nat → Prop} (hm : Counter threads w mine t) (ho : Counter threads w other t')
    (h : Asked threads mine other t n ok v) : v = count threads mine t n % 2 ^ w ∧ ∃ l mo u p, l < n ∧
      eventAt threads t l = some (.num other ⟨(.load, mo), some u, .read p⟩) ∧ (mo = none ∨ ∃ o, mo = some o ∧ Acquiring o) ∧
      ok v (p % 2 ^ w) ∧ count threads mine t l = count threads mine t n := by
  obtain ⟨l0, mo0, v', acc0, l, mo, u, acc, hl0, hl, e0, e1, hacq, hv, hok, hs0, hs1⟩ := h
  obtain ⟨p0, -, hp0, hown, -⟩ := hm.load _ _ _ _ _ e0
  obtain ⟨p, rfl, hp, -⟩ := ho.load _ _ _ _ _ e1
  refine ⟨?_, l, mo, u, p, hl, e1, hacq, by rwa [← hp], count_same (Nat.le_of_lt hl) hs1⟩
  rw [← hv, hp0, hown rfl, count_same (Nat.le_of_lt hl0) hs0]

/-- The receiver sees at least as many values sent as it has received. -/
theorem seen_sent (h : Run c0 v0 threads w N tail head P C slot) : ∀ (k l : Nat) mo u p, count threads head C l = k →
    eventAt threads C l = some (.num tail ⟨(.load, mo), some u, .read p⟩) → k ≤ p := by
  intro k
  induction k with
  | zero => intros; omega
  | succ k ih =>
    intro l mo u p hc he
    obtain ⟨z, r, hz, hr, hne, hk⟩ := count_exists hc
    rcases h.use.headCalls C z r hr with hl | ⟨-, v, u', hask, -⟩
    · exact absurd hl hne
    obtain ⟨hv, l', mo', u'', p', hl', e', -, hok, hcl⟩ := asked_counts (headCounter h) (tailCounter h) hask
    have h1 := ih l' mo' u'' p' (by rw [hcl, hk]) e'
    have h2 := (tailCounter h).mono C l' l _ _ p' p e' he rfl rfl (by omega)
    rw [hk] at hv
    have : p' ≠ k := by
      rintro rfl
      exact hok hv.symm
    omega

/-- The sender does not see more values received than it has sent. -/
theorem seen_received (h : Run c0 v0 threads w N tail head P C slot) {l p : Nat} {mo : Option MOrd} {u : BitVec (D.C head).w}
    (he : eventAt threads P l = some (.num head ⟨(.load, mo), some u, .read p⟩)) (hacq : mo = none ∨ ∃ o, mo = some o ∧ Acquiring o) :
    p ≤ count threads tail P l := by
  refine Nat.le_of_not_lt fun hlt => ?_
  obtain ⟨q, rfl⟩ : ∃ q, p = q + 1 := ⟨p - 1, by omega⟩
  obtain ⟨p1, hp1, -, -, -, hsync⟩ := (headCounter h).load _ _ _ _ _ he
  cases hp1
  obtain ⟨z, r, hz, hne, hcz, hb⟩ := hsync hacq q rfl
  rcases h.use.headCalls C z r hz with hl | ⟨-, v, u', hask, -⟩
  · exact hne hl
  obtain ⟨hv, l', mo', u'', p', hl', e', hacq', hok, hcl⟩ := asked_counts (headCounter h) (tailCounter h) hask
  have h1 := seen_sent h q l' mo' u'' p' (by rw [hcl, hcz]) e'
  have h2 : p' ≠ q := by
    rintro rfl
    rw [hcz] at hv
    exact hok hv.symm
  obtain ⟨q', rfl⟩ : ∃ q', p' = q' + 1 := ⟨p' - 1, by omega⟩
  obtain ⟨p2, hp2, -, -, -, hsync'⟩ := (tailCounter h).load _ _ _ _ _ e'
  cases hp2
  obtain ⟨z', r', hz', hne', hcz', hb'⟩ := hsync' hacq' q' rfl
  have hle : l ≤ z' := by
    refine Nat.le_of_not_lt fun hlt' => ?_
    have := count_change hz' hne' hlt'
    omega
  refine h.acyclic (P, l) (HB.trans _ _ _ _ _ _ (hb_from hb' hz' e' he hz hle (Nat.le_of_lt hl')) hb)

/-- The sender sees all but `N` of the values it has sent received. -/
theorem seen_room (h : Run c0 v0 threads w N tail head P C slot) : ∀ (k l : Nat) mo u p, count threads tail P l = k →
    eventAt threads P l = some (.num head ⟨(.load, mo), some u, .read p⟩) → k ≤ p + N := by
  intro k
  induction k with
  | zero => intros; omega
  | succ k ih =>
    intro l mo u p hc he
    obtain ⟨z, r, hz, hr, hne, hk⟩ := count_exists hc
    rcases h.use.tailCalls P z r hr with hl | ⟨-, v, u', hask, -⟩
    · exact absurd hl hne
    obtain ⟨hv, l', mo', u'', p', hl', e', hacq, hok, hcl⟩ := asked_counts (tailCounter h) (headCounter h) hask
    have h1 := ih l' mo' u'' p' (by rw [hcl, hk]) e'
    have h2 := (headCounter h).mono P l' l _ _ p' p e' he rfl rfl (by omega)
    have h3 := seen_received h e' hacq
    rw [hcl, hk] at h3
    rw [hk] at hv
    have : k ≠ p' + N := by
      rintro rfl
      refine hok ?_
      rw [hv]
      exact difference h.fewer
    omega

/-- Where a thread is that uses a place. -/
theorem send_at (h : Run c0 v0 threads w N tail head P C slot) {n i : Nat} {m : Bool} (hi : i < N)
    (he : eventAt threads P n = some (.plain (slot i) m)) : i = count threads tail P n % N ∧ ∃ l mo u p, l < n ∧
      eventAt threads P l = some (.num head ⟨(.load, mo), some u, .read p⟩) ∧ (mo = none ∨ ∃ o, mo = some o ∧ Acquiring o) ∧
      count threads tail P n + 1 ≤ p + N := by
  rcases h.use.slots P n i m hi he with ⟨-, v, hask, hv⟩ | ⟨h', -⟩
  · obtain ⟨hv', l, mo, u, p, hl, e', hacq, hok, hcl⟩ := asked_counts (tailCounter h) (headCounter h) hask
    refine ⟨by rw [hv, hv', Nat.mod_mod_of_dvd _ h.divides], l, mo, u, p, hl, e', hacq, ?_⟩
    have h1 := seen_room h _ l mo u p hcl e'
    have : count threads tail P n ≠ p + N := by
      intro hn
      refine hok ?_
      rw [hv', hn]
      exact difference h.fewer
    omega
  · exact absurd h' h.two

theorem receive_at (h : Run c0 v0 threads w N tail head P C slot) {n i : Nat} {m : Bool} (hi : i < N)
    (he : eventAt threads C n = some (.plain (slot i) m)) : i = count threads head C n % N ∧ ∃ l mo u p, l < n ∧
      eventAt threads C l = some (.num tail ⟨(.load, mo), some u, .read p⟩) ∧ (mo = none ∨ ∃ o, mo = some o ∧ Acquiring o) ∧
      count threads head C n + 1 ≤ p := by
  rcases h.use.slots C n i m hi he with ⟨h', -⟩ | ⟨-, v, hask, hv⟩
  · exact absurd h'.symm h.two
  · obtain ⟨hv', l, mo, u, p, hl, e', hacq, hok, hcl⟩ := asked_counts (headCounter h) (tailCounter h) hask
    refine ⟨by rw [hv, hv', Nat.mod_mod_of_dvd _ h.divides], l, mo, u, p, hl, e', hacq, ?_⟩
    have h1 := seen_sent h _ l mo u p hcl e'
    have : p ≠ count threads head C n := by
      intro hn
      rw [hn, hv'] at hok
      exact hok rfl
    omega

/-- What the owner of a counter has done before a change that is seen. -/
theorem before_seen {a : γ} {t0 t l n p : Nat} {mo : Option MOrd} {u : BitVec (D.C a).w} (hc : Counter threads w a t0)
    (he : eventAt threads t l = some (.num a ⟨(.load, mo), some u, .read p⟩)) (hacq : mo = none ∨ ∃ o, mo = some o ∧ Acquiring o)
    {e : Event D δ} (hn : eventAt threads t0 n = some e) (hlt : count threads a t0 n < p) : HB threads t0 n t l := by
  obtain ⟨q, rfl⟩ : ∃ q, p = q + 1 := ⟨p - 1, by omega⟩
  obtain ⟨p1, hp1, -, -, -, hsync⟩ := hc.load _ _ _ _ _ he
  cases hp1
  obtain ⟨z, r, hz, hne, hcz, hb⟩ := hsync hacq q rfl
  refine hb_from hb hz he hn he (Nat.le_of_not_lt fun hlt' => ?_) (Nat.le_refl _)
  have := count_change hz hne hlt'
  omega

theorem send_receive (h : Run c0 v0 threads w N tail head P C slot) {n n' i : Nat} {m' : Bool} {e : Event D δ} (hi : i < N)
    (he : eventAt threads P n = some e) (he' : eventAt threads C n' = some (.plain (slot i) m'))
    (hle : count threads tail P n ≤ count threads head C n') : HB threads P n C n' := by
  obtain ⟨-, l, mo, u, p, hl, e', hacq, hp⟩ := receive_at h hi he'
  exact .trans _ _ _ _ _ _ (before_seen (tailCounter h) e' hacq he (by omega)) (.same _ _ _ _ _ e' he' hl)

theorem receive_send (h : Run c0 v0 threads w N tail head P C slot) {n n' i : Nat} {m m' : Bool} (hi : i < N)
    (he : eventAt threads P n = some (.plain (slot i) m)) (he' : eventAt threads C n' = some (.plain (slot i) m'))
    (hlt : count threads head C n' < count threads tail P n) : HB threads C n' P n := by
  obtain ⟨h1, l, mo, u, p, hl, e', hacq, hp⟩ := send_at h hi he
  obtain ⟨h2, -⟩ := receive_at h hi he'
  have : count threads head C n' + N ≤ count threads tail P n := by
    rw [h1] at h2
    generalize count threads head C n' = a at *
    generalize count threads tail P n = b at *
    have ha := Nat.div_add_mod a N
    have hb := Nat.div_add_mod b N
    have hd : a / N < b / N := by
      refine Nat.lt_of_not_le fun hge => ?_
      have := Nat.mul_le_mul_left N hge
      omega
    have := Nat.mul_le_mul_left N hd
    rw [Nat.mul_succ] at this
    omega
  exact .trans _ _ _ _ _ _ (before_seen (headCounter h) e' hacq he' (by omega)) (.same _ _ _ _ _ e' he hl)

/-- **C154, no data race.** The two threads do not access a place at the same time, however often the counters wrap around and whatever
else the threads (and others) do. -/
theorem C154_no_race (h : Run c0 v0 threads w N tail head P C slot) (i : Nat) (hi : i < N) : ¬ Race threads (slot i) := by
  rintro ⟨t, n, m, t', n', m', he, he', -, hne, h1, h2⟩
  have main : ∀ {n n' m m'}, eventAt threads P n = some (.plain (slot i) m) → eventAt threads C n' = some (.plain (slot i) m') →
      HB threads P n C n' ∨ HB threads C n' P n := by
    intro n n' m m' he he'
    by_cases hle : count threads tail P n ≤ count threads head C n'
    · exact .inl (send_receive h hi he he' hle)
    · exact .inr (receive_send h hi he he' (by omega))
  have same : t = t' → False := by
    rintro rfl
    rcases Nat.lt_trichotomy n n' with hl | rfl | hl
    · exact h1 (.same _ _ _ _ _ he he' hl)
    · exact hne ⟨rfl, rfl⟩
    · exact h2 (.same _ _ _ _ _ he' he hl)
  rcases h.use.slots t n i m hi he with ⟨rfl, -⟩ | ⟨rfl, -⟩ <;> rcases h.use.slots t' n' i m' hi he' with ⟨rfl, -⟩ | ⟨rfl, -⟩
  · exact same rfl
  · exact (main he he').elim h1 h2
  · exact (main he' he).elim h2 h1
  · exact same rfl

/-- **C154, refused because full.** If the sender finds the ring full, it has sent `N` values more than it has seen received. -/
theorem C154_full (h : Run c0 v0 threads w N tail head P C slot) {n v : Nat}
    (hask : Asked threads tail head P n (fun v u => ¬ NotFull w N v u) v) : ∃ l r p, l < n ∧ eventAt threads P l = some (.num head r) ∧
      r.acc = .read p ∧ count threads tail P n = p + N := by
  obtain ⟨hv', l, mo, u, p, hl, e', hacq, hok, hcl⟩ := asked_counts (tailCounter h) (headCounter h) hask
  refine ⟨l, _, p, hl, e', rfl, ?_⟩
  have h1 := seen_room h _ l mo u p hcl e'
  have h2 := seen_received h e' hacq
  rw [hcl] at h2
  obtain ⟨d, hd⟩ : ∃ d, count threads tail P n = p + d := ⟨_, (Nat.add_sub_of_le h2).symm⟩
  have hf := h.fewer
  rw [hd] at h1 hv' ⊢
  unfold NotFull at hok
  rw [hv', difference (by omega), Classical.not_not] at hok
  omega

/-- **C154, refused because empty.** If the receiver finds the ring empty, it has received every value it has seen sent. -/
theorem C154_empty (h : Run c0 v0 threads w N tail head P C slot) {n v : Nat}
    (hask : Asked threads head tail C n (fun v u => ¬ NotEmpty v u) v) : ∃ l r p, l < n ∧ eventAt threads C l = some (.num tail r) ∧
      r.acc = .read p ∧ count threads head C n = p := by
  obtain ⟨hv', l, mo, u, p, hl, e', hacq, hok, hcl⟩ := asked_counts (headCounter h) (tailCounter h) hask
  refine ⟨l, _, p, hl, e', rfl, ?_⟩
  have h1 := seen_sent h _ l mo u p hcl e'
  have h2 : p ≤ count threads head C n + N := by
    refine Nat.le_of_not_lt fun hlt => ?_
    obtain ⟨q, rfl⟩ : ∃ q, p = q + 1 := ⟨p - 1, by omega⟩
    obtain ⟨p1, hp1, -, -, -, hsync⟩ := (tailCounter h).load _ _ _ _ _ e'
    cases hp1
    obtain ⟨z, r, hz, hne, hcz, hb⟩ := hsync hacq q rfl
    rcases h.use.tailCalls P z r hz with hl' | ⟨-, v2, u2, hask2, -⟩
    · exact hne hl'
    obtain ⟨hv2, l2, mo2, u3, p2, hl2, e2, hacq2, hok2, hcl2⟩ := asked_counts (tailCounter h) (headCounter h) hask2
    have h3 := seen_room h _ l2 mo2 u3 p2 hcl2 e2
    have h4 : count threads tail P z ≠ p2 + N := by
      intro hn
      refine hok2 ?_
      rw [hv2, hn]
      exact difference h.fewer
    have h5 : count threads head C l < p2 := by omega
    exact h.acyclic (C, l) (.trans _ _ _ _ _ _ (.trans _ _ _ _ _ _ (before_seen (headCounter h) e2 hacq2 e' h5)
      (.same _ _ _ _ _ e2 hz hl2)) hb)
  obtain ⟨d, hd⟩ : ∃ d, p = count threads head C n + d := ⟨_, (Nat.add_sub_of_le h1).symm⟩
  have hf := h.fewer
  subst hd
  unfold NotEmpty at hok
  rw [hv', Classical.not_not] at hok
  have hdiff := difference (w := w) (N := d) (p := count threads head C n) (by omega)
  rw [hok, Nat.add_sub_cancel_left, Nat.mod_self] at hdiff
  omega

end

/-! ## Values -/

section

variable {threads : List (List (Event D δ))} {N : Nat} {slot : Nat → δ}

open Classical in
/-- The uses of places by a thread, in order. -/
noncomputable def uses (threads : List (List (Event D δ))) (N : Nat) (slot : Nat → δ) (t n : Nat) : List Nat :=
  (List.range n).filter fun x => decide (IsAccess threads N slot t x)

theorem uses_succ (t n : Nat) : (IsAccess threads N slot t n → uses threads N slot t (n + 1) = uses threads N slot t n ++ [n]) ∧
    (¬ IsAccess threads N slot t n → uses threads N slot t (n + 1) = uses threads N slot t n) := by
  constructor <;> intro h <;> simp [uses, List.range_succ, h]

theorem mem_uses {t n x : Nat} : x ∈ uses threads N slot t n ↔ x < n ∧ IsAccess threads N slot t x := by simp [uses]

theorem uses_sorted (t n : Nat) : (uses threads N slot t n).Pairwise (· < ·) := List.pairwise_lt_range.filter _

theorem uses_at {t x : Nat} : ∀ {n}, x < n → IsAccess threads N slot t x →
    (uses threads N slot t n)[(uses threads N slot t x).length]? = some x := by
  intro n
  induction n with
  | zero => omega
  | succ n ih =>
    intro hx ha
    by_cases hxn : x = n
    · subst hxn
      rw [(uses_succ t x).1 ha]
      simp
    · have h1 := ih (by omega) ha
      have hlt := (List.getElem?_eq_some_iff.mp h1).1
      by_cases hn : IsAccess threads N slot t n
      · rw [(uses_succ t n).1 hn, List.getElem?_append_left hlt, h1]
      · rw [(uses_succ t n).2 hn, h1]

theorem uses_index {t n k x : Nat} (h : (uses threads N slot t n)[k]? = some x) : k = (uses threads N slot t x).length := by
  have hm := mem_uses.mp (List.mem_of_getElem? h)
  have h' := uses_at hm.1 hm.2
  obtain ⟨h1, h2⟩ := List.getElem?_eq_some_iff.mp h
  obtain ⟨h3, h4⟩ := List.getElem?_eq_some_iff.mp h'
  have hs := List.pairwise_iff_getElem.mp (uses_sorted (threads := threads) (N := N) (slot := slot) t n)
  rcases Nat.lt_trichotomy k (uses threads N slot t x).length with hl | hl | hl
  · have := hs _ _ h1 h3 hl; omega
  · exact hl
  · have := hs _ _ h3 h1 hl; omega

theorem access_not_num {a : γ} {t n : Nat} (h : IsAccess threads N slot t n) (r) : eventAt threads t n ≠ some (.num a r) := by
  obtain ⟨i, m, _, he⟩ := h
  rw [he]
  intro h; cases h

/-- The number of uses is the number of changes, or one more after a use that is not followed by a change yet. -/
theorem uses_count {a : γ} {t : Nat} (ho : Once threads N a t slot) (n : Nat) :
    ((∃ x, x < n ∧ IsAccess threads N slot t x ∧ Same threads a t x n) ∧ (uses threads N slot t n).length = count threads a t n + 1) ∨
    ((¬ ∃ x, x < n ∧ IsAccess threads N slot t x ∧ Same threads a t x n) ∧ (uses threads N slot t n).length = count threads a t n) := by
  induction n with
  | zero => exact .inr ⟨by rintro ⟨x, hx, _⟩; omega, by simp [uses, count]⟩
  | succ n ih =>
    by_cases ha : IsAccess threads N slot t n
    · have hno : ¬ ∃ x, x < n ∧ IsAccess threads N slot t x ∧ Same threads a t x n := by
        rintro ⟨x, hx, ⟨i, m, hi, he⟩, hs⟩
        obtain ⟨j, m', hj, he'⟩ := ha
        exact ho.once x n i j m m' hi hj hx he he' hs
      have hl := (ih.resolve_left fun h => hno h.1).2
      have hs : Same threads a t n (n + 1) := by
        intro z q h1 h2 h3
        have : z = n := by omega
        subst this
        exact absurd h3 (access_not_num ha q)
      refine .inl ⟨⟨n, by omega, ha, hs⟩, ?_⟩
      rw [(uses_succ t n).1 ha, List.length_append, hl, count_same (Nat.le_succ n) hs]
      rfl
    · rw [(uses_succ t n).2 ha]
      by_cases hc : ∃ r, eventAt threads t n = some (.num a r) ∧ r.call.1 ≠ .load
      · obtain ⟨r, hr, hne⟩ := hc
        obtain ⟨x, i, m, hx, hi, he, hs⟩ := ho.used n r hr hne
        have hl := (ih.resolve_right fun h => h.1 ⟨x, hx, ⟨i, m, hi, he⟩, hs⟩).2
        refine .inr ⟨?_, ?_⟩
        · rintro ⟨y, hy, _, hs'⟩
          exact hne (hs' n r (by omega) (by omega) hr)
        · have := count_succ (a := a) hr
          rw [if_pos (changes_num.mpr hne)] at this
          omega
      · have hs : Same threads a t n (n + 1) := by
          intro z q h1 h2 h3
          have : z = n := by omega
          subst this
          exact Classical.byContradiction fun hne => hc ⟨q, h3, hne⟩
        rw [← count_same (Nat.le_succ n) hs]
        refine ih.imp (fun ⟨⟨x, hx, hax, hsx⟩, hl⟩ => ⟨⟨x, by omega, hax, ?_⟩, hl⟩) fun ⟨hno, hl⟩ => ⟨?_, hl⟩
        · intro z q h1 h2 h3
          by_cases hz : z < n
          · exact hsx z q h1 hz h3
          · exact hs z q (by omega) h2 h3
        · rintro ⟨x, hx, hax, hsx⟩
          have : x ≠ n := by rintro rfl; exact ha hax
          exact hno ⟨x, by omega, hax, fun z q h1 h2 h3 => hsx z q h1 (by omega) h3⟩

/-- The thread uses a place after as many uses as there were changes. -/
theorem use_count {a : γ} {t : Nat} (ho : Once threads N a t slot) {n : Nat} (h : IsAccess threads N slot t n) :
    (uses threads N slot t n).length = count threads a t n := by
  refine ((uses_count ho n).resolve_left ?_).2
  rintro ⟨⟨x, hx, ⟨i, m, hi, he⟩, hs⟩, -⟩
  obtain ⟨j, m', hj, he'⟩ := h
  exact ho.once x n i j m m' hi hj hx he he' hs

end

section

variable {c0 : (k : κ) → BitVec (D.w k)} {v0 : (a : γ) → BitVec (D.C a).w} {threads : List (List (Event D δ))} {w N : Nat} {tail head : γ}
  {P C : Nat} {slot : Nat → δ}

theorem same_use {a : γ} {t : Nat} (ho : Once threads N a t slot) {n n' : Nat} (h : IsAccess threads N slot t n) (h' : IsAccess threads N slot t n')
    (hc : count threads a t n = count threads a t n') : n = n' := by
  obtain ⟨i, m, hi, he⟩ := h
  obtain ⟨j, m', hj, he'⟩ := h'
  rcases Nat.lt_trichotomy n n' with hl | hl | hl
  · exact absurd (same_of_count hc) (ho.once _ _ _ _ _ _ hi hj hl he he')
  · exact hl
  · exact absurd (same_of_count hc.symm) (ho.once _ _ _ _ _ _ hj hi hl he' he)

/-- A value that is received is the one that was sent as the same. -/
theorem received (h : Run c0 v0 threads w N tail head P C slot) (hp : Once threads N tail P slot) (hc : Once threads N head C slot)
    {mv : α → α} {s0 : Nat → α} {val : Nat → α} {pre : Nat → Nat × Nat → α}
    (hpl : ∀ i, i < N → Plain (cell mv) (s0 i) threads (slot i) (cellOp P val) (pre i))
    {n' i : Nat} {m' : Bool} (hi : i < N) (he' : eventAt threads C n' = some (.plain (slot i) m')) :
    ∃ n, eventAt threads P n = some (.plain (slot i) true) ∧ count threads tail P n = count threads head C n' ∧ HB threads P n C n' ∧
      result (cell mv) (cellOp P val) (pre i) (C, n') = .ok (some (val n)) := by
  obtain ⟨h1, l, mo, u, p, hl, e', hacq, hlt⟩ := receive_at h hi he'
  obtain ⟨p1, hp1, -, -, hall, -⟩ := (tailCounter h).load _ _ _ _ _ e'
  cases hp1
  obtain ⟨z, r, hz, hne, hcz⟩ := hall (count threads head C n') (by omega)
  obtain ⟨n, j, m, hnz, hj, he, hs⟩ := hp.used z r hz hne
  have hcn : count threads tail P n = count threads head C n' := by rw [count_same (Nat.le_of_lt hnz) hs, hcz]
  obtain ⟨h2, -⟩ := send_at h hj he
  have hij : j = i := by rw [h2, h1, hcn]
  subst hij
  have hm := hp.writes n j m hj he
  subst hm
  have hm' := hc.writes n' j m' hj he'
  subst hm'
  have hb : HB threads P n C n' := send_receive h hj he he' (by omega)
  refine ⟨n, he, hcn, hb, ?_⟩
  have cyc : ∀ t n, ¬ HB threads t n t n := fun t n => h.acyclic (t, n)
  have hpre : pre j (C, n') = val n := by
    refine (hpl j hj).next (P, n) (C, n') he he' hb ?_ (val n) none (by simp [cellOp, cell])
    rintro ⟨t, x⟩ hu hb1 hb2
    simp only [IsOp] at hu
    simp only [Before] at hb1 hb2
    rcases h.use.slots t x j true hj hu with ⟨rfl, -⟩ | ⟨rfl, -⟩
    · rcases Nat.lt_trichotomy (count threads tail t x) (count threads tail t n) with hk | hk | hk
      · have : x < n := by
          refine Nat.lt_of_not_le fun hge => ?_
          have := count_mono (threads := threads) (a := tail) (t := t) hge
          omega
        exact cyc _ _ (.trans _ _ _ _ _ _ (.same _ _ _ _ _ hu he this) hb1)
      · have := same_use hp ⟨j, true, hj, hu⟩ ⟨j, true, hj, he⟩ hk
        subst this
        exact cyc _ _ hb1
      · exact cyc _ _ (.trans _ _ _ _ _ _ hb2 (receive_send h hj hu he' (by omega)))
    · rcases Nat.lt_trichotomy (count threads head t x) (count threads head t n') with hk | hk | hk
      · exact cyc _ _ (.trans _ _ _ _ _ _ hb1 (receive_send h hj he hu (by omega)))
      · have := same_use hc ⟨j, true, hj, hu⟩ ⟨j, true, hj, he'⟩ hk
        subst this
        exact cyc _ _ hb2
      · have : n' < x := by
          refine Nat.lt_of_not_le fun hge => ?_
          have := count_mono (threads := threads) (a := head) (t := t) hge
          omega
        exact cyc _ _ (.trans _ _ _ _ _ _ hb2 (.same _ _ _ _ _ he' hu this))
  have hCP : ¬ C = P := fun h' => h.two h'.symm
  unfold result
  rw [hpre]
  simp [cellOp, hCP, cell, bind, Outcome.bind, pure]

theorem access_lt {t n : Nat} (h : IsAccess threads N slot t n) : n < (threads.getD t []).length := by
  obtain ⟨i, m, _, he⟩ := h
  rw [event_getD] at he
  exact (List.getElem?_eq_some_iff.mp he).1

/-- **C154, first in, first out.** The values are received as they were sent, in the order in which they were sent, none twice and none left
out; what was done before a value was sent happens before what is done after it is received; and no more than `N` values are in the ring. -/
theorem C154_fifo (h : Run c0 v0 threads w N tail head P C slot) (hp : Once threads N tail P slot) (hc : Once threads N head C slot)
    {mv : α → α} {s0 : Nat → α} {val : Nat → α} {pre : Nat → Nat × Nat → α}
    (hpl : ∀ i, i < N → Plain (cell mv) (s0 i) threads (slot i) (cellOp P val) (pre i)) :
    ∃ sends gets : List Nat, sends.Pairwise (· < ·) ∧ gets.Pairwise (· < ·) ∧ (∀ n, n ∈ sends ↔ IsAccess threads N slot P n) ∧
      (∀ n, n ∈ gets ↔ IsAccess threads N slot C n) ∧
      (∀ (k : Nat) n', gets[k]? = some n' → ∃ n i, sends[k]? = some n ∧ i < N ∧ IsOp threads (slot i) (C, n') ∧
        result (cell mv) (cellOp P val) (pre i) (C, n') = .ok (some (val n)) ∧
        ∀ l l' e e', eventAt threads P l = some e → eventAt threads C l' = some e' → l ≤ n → n' ≤ l' → HB threads P l C l') ∧
      sends.length ≤ gets.length + N := by
  refine ⟨uses threads N slot P (threads.getD P []).length, uses threads N slot C (threads.getD C []).length, uses_sorted _ _, uses_sorted _ _,
    fun n => ⟨fun hn => (mem_uses.mp hn).2, fun hn => mem_uses.mpr ⟨access_lt hn, hn⟩⟩,
    fun n => ⟨fun hn => (mem_uses.mp hn).2, fun hn => mem_uses.mpr ⟨access_lt hn, hn⟩⟩, ?_, ?_⟩
  · intro k n' hk
    have ha' := (mem_uses.mp (List.mem_of_getElem? hk)).2
    have hki := uses_index hk
    rw [use_count hc ha'] at hki
    have ha'' := ha'
    obtain ⟨i, m', hi, he'⟩ := ha''
    obtain ⟨n, he, hcn, hb, hres⟩ := received h hp hc hpl hi he'
    have ha : IsAccess threads N slot P n := ⟨i, true, hi, he⟩
    have hm' := hc.writes n' i m' hi he'
    subst hm'
    refine ⟨n, i, ?_, hi, he', hres, fun l l' e e' h1 h2 h3 h4 => hb_from hb he he' h1 h2 h3 h4⟩
    have := uses_at (access_lt ha) ha
    rwa [use_count hp ha, hcn, ← hki] at this
  · cases hlen : (uses threads N slot P (threads.getD P []).length).length with
    | zero => omega
    | succ k =>
      have hk : ∃ n, (uses threads N slot P (threads.getD P []).length)[k]? = some n :=
        ⟨_, List.getElem?_eq_getElem (by omega)⟩
      obtain ⟨n, hn⟩ := hk
      have ha := (mem_uses.mp (List.mem_of_getElem? hn)).2
      have hki := uses_index hn
      rw [use_count hp ha] at hki
      obtain ⟨i, m, hi, he⟩ := ha
      obtain ⟨-, l, mo, u, p, hl, e', hacq, hroom⟩ := send_at h hi he
      cases p with
      | zero => omega
      | succ p =>
        obtain ⟨p1, hp1, -, -, hall, -⟩ := (headCounter h).load _ _ _ _ _ e'
        cases hp1
        obtain ⟨z, r, hz, hne, hcz⟩ := hall p (by omega)
        have h1 : p + 1 ≤ (uses threads N slot C (z + 1)).length := by
          have : _ ≤ count threads head C (z + 1) := count_change hz hne (Nat.lt_succ_self z)
          rcases uses_count hc (z + 1) with ⟨-, h⟩ | ⟨-, h⟩ <;> omega
        have h2 : (uses threads N slot C (z + 1)).length ≤ (uses threads N slot C (threads.getD C []).length).length := by
          refine List.Sublist.length_le (List.Sublist.filter _ ?_)
          have : z < (threads.getD C []).length := by
            rw [event_getD] at hz
            exact (List.getElem?_eq_some_iff.mp hz).1
          exact List.range_sublist.mpr this
        omega

end

/-! ## Examples -/

/-- A ring with one place: a value is sent and received, then another one is sent; then the sender finds the ring full, and the
receiver does not see the second value yet. `tail` is `false`, `head` is `true`. -/
def reuse : List (List (Event desk Nat)) :=
  [[.num false ⟨(.load, some .relaxed), some 0#8, .read 0⟩, .num true ⟨(.load, some .acquire), some 0#8, .read 0⟩, .plain 3 true,
    .num false ⟨(.store 1#8, some .release), none, .write 0⟩,
    .num false ⟨(.load, some .relaxed), some 1#8, .read 1⟩, .num true ⟨(.load, some .acquire), some 1#8, .read 1⟩, .plain 3 true,
    .num false ⟨(.store 2#8, some .release), none, .write 1⟩,
    .num false ⟨(.load, some .relaxed), some 2#8, .read 2⟩, .num true ⟨(.load, some .acquire), some 1#8, .read 1⟩, .plain 9 false],
   [.num true ⟨(.load, some .relaxed), some 0#8, .read 0⟩, .num false ⟨(.load, some .acquire), some 1#8, .read 1⟩, .plain 3 true,
    .num true ⟨(.store 1#8, some .release), none, .write 0⟩,
    .num true ⟨(.load, some .relaxed), some 1#8, .read 1⟩, .num false ⟨(.load, some .acquire), some 1#8, .read 1⟩, .plain 9 false]]

theorem reuse_histories : Histories (fun _ => 0#8) (fun _ => 0#8) reuse := by
  refine ⟨fun | () => ⟨0, fun _ => 0#8, .of_rules rfl ?_ ?_⟩, fun
    | false => ⟨2, fun n => [0#32, 1#32, 2#32].getD n 0#32, .of_rules rfl ?_ ?_⟩
    | true => ⟨1, fun n => [0#32, 1#32].getD n 0#32, .of_rules rfl ?_ ?_⟩⟩
  · intro rs hrs r hr
    fin_cases hrs <;> simp [Event.bits?] at hr
  · decide
  · intro rs hrs r hr
    fin_cases hrs <;> fin_cases hr
    · exact ⟨_, _, _, _, rfl, rfl, .inl ⟨rfl, 0, rfl⟩⟩
    · exact ⟨_, _, _, _, rfl, rfl, .inr ⟨by decide, 0, rfl, rfl⟩⟩
    · exact ⟨_, _, _, _, rfl, rfl, .inl ⟨rfl, 1, rfl⟩⟩
    · exact ⟨_, _, _, _, rfl, rfl, .inr ⟨by decide, 1, rfl, rfl⟩⟩
    · exact ⟨_, _, _, _, rfl, rfl, .inl ⟨rfl, 2, rfl⟩⟩
    · exact ⟨_, _, _, _, rfl, rfl, .inl ⟨rfl, 1, rfl⟩⟩
    · exact ⟨_, _, _, _, rfl, rfl, .inl ⟨rfl, 1, rfl⟩⟩
  · decide
  · intro rs hrs r hr
    fin_cases hrs <;> fin_cases hr
    · exact ⟨_, _, _, _, rfl, rfl, .inl ⟨rfl, 0, rfl⟩⟩
    · exact ⟨_, _, _, _, rfl, rfl, .inl ⟨rfl, 1, rfl⟩⟩
    · exact ⟨_, _, _, _, rfl, rfl, .inl ⟨rfl, 1, rfl⟩⟩
    · exact ⟨_, _, _, _, rfl, rfl, .inl ⟨rfl, 0, rfl⟩⟩
    · exact ⟨_, _, _, _, rfl, rfl, .inr ⟨by decide, 0, rfl, rfl⟩⟩
    · exact ⟨_, _, _, _, rfl, rfl, .inl ⟨rfl, 1, rfl⟩⟩
  · decide

theorem reuse_at {t n : Nat} {e : Event desk Nat} (h : eventAt reuse t n = some e) : (t = 0 ∧ n < 11) ∨ (t = 1 ∧ n < 7) := by
  match t, n with
  | 0, n =>
    refine .inl ⟨rfl, Nat.lt_of_not_le fun hn => ?_⟩
    obtain ⟨m, rfl⟩ : ∃ m, n = m + 11 := ⟨n - 11, by omega⟩
    cases h
  | 1, n =>
    refine .inr ⟨rfl, Nat.lt_of_not_le fun hn => ?_⟩
    obtain ⟨m, rfl⟩ : ∃ m, n = m + 7 := ⟨n - 7, by omega⟩
    cases h
  | _ + 2, _ => simp [eventAt, reuse] at h

theorem reuse_first : Asked reuse false true 0 2 (NotFull 8 1) 0 := by
  refine ⟨0, _, _, _, 1, _, _, _, by decide, by decide, rfl, rfl, .inr ⟨_, rfl, .inl rfl⟩, rfl, by simp [NotFull], ?_, ?_⟩ <;>
    intro y q h1 h2 hq <;> match y with
    | 0 => cases hq; rfl
    | 1 => cases hq
    | _ + 2 => omega

theorem reuse_first' : Asked reuse false true 0 3 (NotFull 8 1) 0 := by
  refine ⟨0, _, _, _, 1, _, _, _, by decide, by decide, rfl, rfl, .inr ⟨_, rfl, .inl rfl⟩, rfl, by simp [NotFull], ?_, ?_⟩ <;>
    intro y q h1 h2 hq <;> match y with
    | 0 => cases hq; rfl
    | 1 => cases hq
    | 2 => cases hq
    | _ + 3 => omega

theorem reuse_second : Asked reuse false true 0 6 (NotFull 8 1) 1 := by
  refine ⟨4, _, _, _, 5, _, _, _, by decide, by decide, rfl, rfl, .inr ⟨_, rfl, .inl rfl⟩, rfl, by simp [NotFull], ?_, ?_⟩ <;>
    intro y q h1 h2 hq <;> match y with
    | 0 | 1 | 2 | 3 => omega
    | 4 => cases hq; rfl
    | 5 => cases hq
    | _ + 6 => omega

theorem reuse_second' : Asked reuse false true 0 7 (NotFull 8 1) 1 := by
  refine ⟨4, _, _, _, 5, _, _, _, by decide, by decide, rfl, rfl, .inr ⟨_, rfl, .inl rfl⟩, rfl, by simp [NotFull], ?_, ?_⟩ <;>
    intro y q h1 h2 hq <;> match y with
    | 0 | 1 | 2 | 3 => omega
    | 4 => cases hq; rfl
    | 5 | 6 => cases hq
    | _ + 7 => omega

theorem reuse_receive : Asked reuse true false 1 2 NotEmpty 0 := by
  refine ⟨0, _, _, _, 1, _, _, _, by decide, by decide, rfl, rfl, .inr ⟨_, rfl, .inl rfl⟩, rfl, by simp [NotEmpty], ?_, ?_⟩ <;>
    intro y q h1 h2 hq <;> match y with
    | 0 => cases hq; rfl
    | 1 => cases hq
    | _ + 2 => omega

theorem reuse_receive' : Asked reuse true false 1 3 NotEmpty 0 := by
  refine ⟨0, _, _, _, 1, _, _, _, by decide, by decide, rfl, rfl, .inr ⟨_, rfl, .inl rfl⟩, rfl, by simp [NotEmpty], ?_, ?_⟩ <;>
    intro y q h1 h2 hq <;> match y with
    | 0 => cases hq; rfl
    | 1 | 2 => cases hq
    | _ + 3 => omega

/-- The events in the order in which they happen. -/
def turn (t n : Nat) : Nat := if t = 0 then (if n < 4 then n else n + 4) else n + 4

/-- A write comes before the reads and the writes that follow in the order of the changes. -/
def forward (t n t' n' : Nat) : Bool := match eventAt reuse t n, eventAt reuse t' n' with
  | some (.num a r), some (.num b r') => match r.acc with
    | .write j => !(a == b) || !decide (j < r'.acc.pos) || decide (turn t n < turn t' n')
    | _ => true
  | _, _ => true

theorem reuse_forward {t n t' n' : Nat} (h : HB reuse t n t' n') : turn t n < turn t' n' := by
  induction h with
  | same t n n' e e' h h' hn =>
    rcases reuse_at h with ⟨rfl, h1⟩ | ⟨rfl, h1⟩ <;> simp only [turn] <;> split <;> (try split) <;> (try split) <;> omega
  | bits k t n t' n' r r' h =>
    rcases reuse_at h with ⟨rfl, h1⟩ | ⟨rfl, h1⟩
    · match n, h1 with
      | 0, _ | 1, _ | 2, _ | 3, _ | 4, _ | 5, _ | 6, _ | 7, _ | 8, _ | 9, _ | 10, _ => cases h
    · match n, h1 with
      | 0, _ | 1, _ | 2, _ | 3, _ | 4, _ | 5, _ | 6, _ => cases h
  | num a t n t' n' r r' h h' hs =>
    obtain ⟨q, q', _, _, _, _, _, _, _, _, j, c1, c2, _, _, _, _, _, _, hj, hlt, _⟩ := hs
    rw [part_callAt h (num?_eq a r)] at c1
    rw [part_callAt h' (num?_eq a r')] at c2
    cases c1
    cases c2
    have all : ∀ t < 2, ∀ n < 11, ∀ t' < 2, ∀ n' < 11, forward t n t' n' = true := by decide +kernel
    have b : t < 2 ∧ n < 11 := by rcases reuse_at h with ⟨rfl, h1⟩ | ⟨rfl, h1⟩ <;> omega
    have b' : t' < 2 ∧ n' < 11 := by rcases reuse_at h' with ⟨rfl, h1⟩ | ⟨rfl, h1⟩ <;> omega
    have := all t b.1 n b.2 t' b'.1 n' b'.2
    unfold forward at this
    rw [h, h'] at this
    dsimp only at this
    rw [hj] at this
    simpa [hlt] using this
  | trans _ _ _ _ _ _ _ _ ih ih' => omega

theorem reuse_run : Run (fun _ => 0#8) (fun _ => 0#8) reuse 8 1 false true 0 1 (fun i => i + 3) := by
  refine ⟨desk_ok, reuse_histories, rfl, rfl, rfl, rfl, by decide, by decide, by decide,
    fun p h => absurd (reuse_forward h) (Nat.lt_irrefl _), ⟨?_, ?_, ?_⟩⟩
  · intro t n r h
    rcases reuse_at h with ⟨rfl, h1⟩ | ⟨rfl, h1⟩
    · match n, h1 with
      | 0, _ | 4, _ | 8, _ => cases h; exact .inl rfl
      | 3, _ => cases h; exact .inr ⟨rfl, 0, 1#8, reuse_first', rfl, .inl rfl, .inl rfl⟩
      | 7, _ => cases h; exact .inr ⟨rfl, 1, 2#8, reuse_second', rfl, .inl rfl, .inl rfl⟩
      | 1, _ | 2, _ | 5, _ | 6, _ | 9, _ | 10, _ => cases h
    · match n, h1 with
      | 1, _ | 5, _ => cases h; exact .inl rfl
      | 0, _ | 2, _ | 3, _ | 4, _ | 6, _ => cases h
  · intro t n r h
    rcases reuse_at h with ⟨rfl, h1⟩ | ⟨rfl, h1⟩
    · match n, h1 with
      | 1, _ | 5, _ | 9, _ => cases h; exact .inl rfl
      | 0, _ | 2, _ | 3, _ | 4, _ | 6, _ | 7, _ | 8, _ | 10, _ => cases h
    · match n, h1 with
      | 0, _ | 4, _ => cases h; exact .inl rfl
      | 3, _ => cases h; exact .inr ⟨rfl, 0, 1#8, reuse_receive', rfl, .inl rfl, .inl rfl⟩
      | 1, _ | 2, _ | 5, _ | 6, _ => cases h
  · intro t n i m hi h
    have hi0 : i = 0 := by omega
    rcases reuse_at h with ⟨rfl, h1⟩ | ⟨rfl, h1⟩
    · match n, h1 with
      | 2, _ => exact .inl ⟨rfl, 0, reuse_first, hi0⟩
      | 6, _ => exact .inl ⟨rfl, 1, reuse_second, hi0⟩
      | 10, _ => simp [eventAt, reuse] at h; omega
      | 0, _ | 1, _ | 3, _ | 4, _ | 5, _ | 7, _ | 8, _ | 9, _ => cases h
    · match n, h1 with
      | 2, _ => exact .inr ⟨rfl, 0, reuse_receive, hi0⟩
      | 6, _ => simp [eventAt, reuse] at h; omega
      | 0, _ | 1, _ | 3, _ | 4, _ | 5, _ => cases h

example : ¬ Race reuse 3 := C154_no_race reuse_run 0 (by decide)

theorem reuse_sends {n i : Nat} {m : Bool} (hi : i < 1) (h : eventAt reuse 0 n = some (.plain (i + 3) m)) : (n = 2 ∨ n = 6) ∧ m = true := by
  rcases reuse_at h with ⟨-, h1⟩ | ⟨h0, -⟩
  · match n, h1 with
    | 2, _ => cases h; exact ⟨.inl rfl, rfl⟩
    | 6, _ => cases h; exact ⟨.inr rfl, rfl⟩
    | 10, _ => simp [eventAt, reuse] at h; omega
    | 0, _ | 1, _ | 3, _ | 4, _ | 5, _ | 7, _ | 8, _ | 9, _ => cases h
  · cases h0

theorem reuse_receives {n i : Nat} {m : Bool} (hi : i < 1) (h : eventAt reuse 1 n = some (.plain (i + 3) m)) : n = 2 ∧ m = true := by
  rcases reuse_at h with ⟨h0, -⟩ | ⟨-, h1⟩
  · cases h0
  · match n, h1 with
    | 2, _ => cases h; exact ⟨rfl, rfl⟩
    | 6, _ => simp [eventAt, reuse] at h; omega
    | 0, _ | 1, _ | 3, _ | 4, _ | 5, _ => cases h

theorem reuse_send_once : Once reuse 1 false 0 (fun i => i + 3) := by
  refine ⟨?_, ?_, fun x i m hi h => (reuse_sends hi h).2⟩
  · intro n r h hne
    rcases reuse_at h with ⟨-, h1⟩ | ⟨h0, -⟩
    · match n, h1 with
      | 3, _ =>
        refine ⟨2, 0, true, by decide, by decide, rfl, fun z q h1 h2 hq => ?_⟩
        have : z = 2 := by omega
        subst this; cases hq
      | 7, _ =>
        refine ⟨6, 0, true, by decide, by decide, rfl, fun z q h1 h2 hq => ?_⟩
        have : z = 6 := by omega
        subst this; cases hq
      | 0, _ | 4, _ | 8, _ => cases h; exact absurd rfl hne
      | 1, _ | 2, _ | 5, _ | 6, _ | 9, _ | 10, _ => cases h
    · cases h0
  · intro x y i j m m' hi hj hxy h h' hs
    have hx : x = 2 := by have := (reuse_sends hi h).1; have := (reuse_sends hj h').1; omega
    have hy : y = 6 := by have := (reuse_sends hj h').1; omega
    subst hx hy
    cases hs 3 _ (by decide) (by decide) rfl

theorem reuse_receive_once : Once reuse 1 true 1 (fun i => i + 3) := by
  refine ⟨?_, ?_, fun x i m hi h => (reuse_receives hi h).2⟩
  · intro n r h hne
    rcases reuse_at h with ⟨h0, -⟩ | ⟨-, h1⟩
    · cases h0
    · match n, h1 with
      | 3, _ =>
        refine ⟨2, 0, true, by decide, by decide, rfl, fun z q h1 h2 hq => ?_⟩
        have : z = 2 := by omega
        subst this; cases hq
      | 0, _ | 4, _ => cases h; exact absurd rfl hne
      | 1, _ | 2, _ | 5, _ | 6, _ => cases h
  · intro x y i j m m' hi hj hxy h h' hs
    have := (reuse_receives hi h).1
    have := (reuse_receives hj h').1
    omega

/-- What is found in the place; a value that has been moved out leaves `0` behind. -/
def left (p : Nat × Nat) : Nat := if p = (1, 2) then 52 else if p = (0, 6) then 0 else 9

theorem reuse_plain (i : Nat) (hi : i < 1) :
    Plain (cell fun _ => 0) 9 reuse (i + 3) (cellOp 0 fun n => n + 50) left := by
  have hi0 : i = 0 := by omega
  subst hi0
  have ops : ∀ p, IsOp reuse (0 + 3) p → p = (0, 2) ∨ p = (1, 2) ∨ p = (0, 6) := by
    rintro ⟨t, n⟩ h
    simp only [IsOp] at h
    rcases reuse_at h with ⟨rfl, -⟩ | ⟨rfl, -⟩
    · rcases (reuse_sends hi h).1 with rfl | rfl <;> simp
    · simp [(reuse_receives hi h).1]
  have b1 : Before reuse (0, 2) (1, 2) := send_receive reuse_run (i := 0) (m' := true) (by decide) rfl rfl (by decide)
  have b2 : Before reuse (1, 2) (0, 6) := receive_send reuse_run (i := 0) (m := true) (m' := true) (by decide) rfl rfl (by decide)
  refine ⟨fun p h => absurd (reuse_forward h) (Nat.lt_irrefl _), fun p hp hno => ?_, fun p q hp hq hpq hno s r hs => ?_⟩
  · rcases ops p hp with rfl | rfl | rfl
    · rfl
    · exact absurd b1 (hno (0, 2) rfl)
    · exact absurd b2 (hno (1, 2) rfl)
  · have := reuse_forward hpq
    rcases ops p hp with rfl | rfl | rfl <;> rcases ops q hq with rfl | rfl | rfl <;> simp [turn] at this
    · cases hs; rfl
    · exact absurd b2 (hno (1, 2) rfl b1)
    · cases hs; rfl

example := C154_fifo reuse_run reuse_send_once reuse_receive_once reuse_plain

example : result (cell fun _ => 0) (cellOp 0 fun n => n + 50) left (1, 2) = .ok (some 52) := by decide

example : ∃ l r p, l < 10 ∧ eventAt reuse 0 l = some (.num true r) ∧ r.acc = .read p ∧ count reuse false 0 10 = p + 1 := by
  refine C154_full reuse_run (v := 2) ⟨8, _, _, _, 9, _, _, _, by decide, by decide, rfl, rfl, .inr ⟨_, rfl, .inl rfl⟩, rfl,
    by simp [NotFull], ?_, ?_⟩ <;>
    intro y q h1 h2 hq <;> match y with
    | 0 | 1 | 2 | 3 | 4 | 5 | 6 | 7 => omega
    | 8 => cases hq; rfl
    | 9 => cases hq
    | _ + 10 => omega

example : ∃ l r p, l < 6 ∧ eventAt reuse 1 l = some (.num false r) ∧ r.acc = .read p ∧ count reuse true 1 6 = p := by
  refine C154_empty reuse_run (v := 1) ⟨4, _, _, _, 5, _, _, _, by decide, by decide, rfl, rfl, .inr ⟨_, rfl, .inl rfl⟩, rfl,
    by simp [NotEmpty], ?_, ?_⟩ <;>
    intro y q h1 h2 hq <;> match y with
    | 0 | 1 | 2 | 3 => omega
    | 4 => cases hq; rfl
    | 5 => cases hq
    | _ + 6 => omega

/-- A ring with one place, in which `tail` is stored with an order that does not release. -/
def unordered : List (List (Event desk Nat)) :=
  [[.num false ⟨(.load, some .relaxed), some 0#8, .read 0⟩, .num true ⟨(.load, some .acquire), some 0#8, .read 0⟩, .plain 3 true,
    .num false ⟨(.store 1#8, some .relaxed), none, .write 0⟩],
   [.num true ⟨(.load, some .relaxed), some 0#8, .read 0⟩, .num false ⟨(.load, some .acquire), some 1#8, .read 1⟩, .plain 3 true]]

/-- **C154, the order of the store matters.** If `tail` is stored with `relaxed` order, there is an execution with a data race, although both
threads use the place only after they have asked. -/
theorem C154_relaxed_race : ∃ threads : List (List (Event desk Nat)), Histories (fun _ => 0#8) (fun _ => 0#8) threads ∧
    Asked threads false true 0 2 (NotFull 8 1) 0 ∧ Asked threads true false 1 2 NotEmpty 0 ∧
    (∃ r, eventAt threads 0 3 = some (.num false r) ∧ r.call = (.store 1#8, some .relaxed)) ∧ Race threads 3 := by
  have hno : ∀ t n t' n', HB unordered t n t' n' → t = t' := by
    intro t n t' n' h
    induction h with
    | same => rfl
    | bits k t n t' n' q q' h h' hs =>
      match t, n with
      | 0, 0 | 0, 1 | 0, 2 | 0, 3 | 1, 0 | 1, 1 | 1, 2 => cases h
      | 0, _ + 4 | 1, _ + 3 => cases h
      | _ + 2, _ => simp [eventAt, unordered] at h
    | num a t n t' n' q q' h h' hs =>
      obtain ⟨r, r', _, _, _, _, _, _, _, _, j, h1, h2, h3, _, _, h5, _, _, h6, h7, _⟩ := hs
      generalize before (Event.num? a) unordered t n = p at h1
      match a, t, p with
      | false, 0, 0 => cases h1; cases h6
      | false, 0, 1 => cases h1; cases h3; cases h5
      | false, 1, 0 => cases h1; cases h6
      | true, 0, 0 => cases h1; cases h6
      | true, 1, 0 => cases h1; cases h6
      | false, 0, _ + 2 => cases h1
      | false, 1, _ + 1 => cases h1
      | true, 0, _ + 1 => cases h1
      | true, 1, _ + 1 => cases h1
      | false, _ + 2, _ => simp [callAt, part, unordered] at h1
      | true, _ + 2, _ => simp [callAt, part, unordered] at h1
    | trans _ _ _ _ _ _ _ _ ih ih' => exact ih.trans ih'
  refine ⟨unordered, ?_, ?_, ?_, ⟨_, rfl, rfl⟩, 0, 2, true, 1, 2, true, rfl, rfl, .inl rfl, by decide, fun h => ?_, fun h => ?_⟩
  · refine ⟨fun | () => ⟨0, fun _ => 0#8, .of_rules rfl ?_ ?_⟩, fun
      | false => ⟨1, fun n => [0#32, 1#32].getD n 0#32, .of_rules rfl ?_ ?_⟩
      | true => ⟨0, fun _ => 0#32, .of_rules rfl ?_ ?_⟩⟩
    · intro rs hrs r hr
      fin_cases hrs <;> simp [Event.bits?] at hr
    · decide
    · intro rs hrs r hr
      fin_cases hrs <;> fin_cases hr
      · exact ⟨_, _, _, _, rfl, rfl, .inl ⟨rfl, 0, rfl⟩⟩
      · exact ⟨_, _, _, _, rfl, rfl, .inr ⟨by decide, 0, rfl, rfl⟩⟩
      · exact ⟨_, _, _, _, rfl, rfl, .inl ⟨rfl, 1, rfl⟩⟩
    · decide
    · intro rs hrs r hr
      fin_cases hrs <;> fin_cases hr
      · exact ⟨_, _, _, _, rfl, rfl, .inl ⟨rfl, 0, rfl⟩⟩
      · exact ⟨_, _, _, _, rfl, rfl, .inl ⟨rfl, 0, rfl⟩⟩
    · decide
  · refine ⟨0, _, _, _, 1, _, _, _, by decide, by decide, rfl, rfl, .inr ⟨_, rfl, .inl rfl⟩, rfl, by simp [NotFull], ?_, ?_⟩ <;>
      intro y q h1 h2 hq <;> match y with
      | 0 => cases hq; rfl
      | 1 => cases hq
      | _ + 2 => omega
  · refine ⟨0, _, _, _, 1, _, _, _, by decide, by decide, rfl, rfl, .inr ⟨_, rfl, .inl rfl⟩, rfl, by simp [NotEmpty], ?_, ?_⟩ <;>
      intro y q h1 h2 hq <;> match y with
      | 0 => cases hq; rfl
      | 1 => cases hq
      | _ + 2 => omega
  · cases hno _ _ _ _ h
  · cases hno _ _ _ _ h

end Verif.Ring
