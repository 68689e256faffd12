import Verif.Peterson.Model
import Verif.FlagLock.Props
import Mathlib.Tactic.IntervalCases

/-!
# Properties of a lock for two threads that wait for each other (C165)
-/

namespace Verif.Peterson

open Verif.Sync Verif.Conc
open Verif.SeqCst (SingleOrder IsSeqCst Earlier Cob)
open Verif.FlagLock (Sc one_way)

variable {κ γ δ : Type} {D : Decls κ γ} [DecidableEq κ] [DecidableEq γ]

/-- Thread `t` makes a call, after its event `x` or there, that happens before event `x'` of thread `t'`. -/
def Past (threads : List (List (Event D δ))) (t x t' x' : Nat) : Prop := ∃ z e, x ≤ z ∧ eventAt threads t z = some e ∧ HB threads t z t' x'

section

variable {c0 : (k : κ) → BitVec (D.w k)} {v0 : (a : γ) → BitVec (D.C a).w} {threads : List (List (Event D δ))} {flag : Nat → γ} {turn : γ}

/-! ## Lemmas -/

theorem other {t t' : Nat} (ht : t < 2) (ht' : t' < 2) (hne : t ≠ t') : 1 - t = t' := by omega

theorem load_acquires {w : Nat} {dflt : MOrd} {op : Atomic.Op w} {mo : Option MOrd} (h : op = .load) (ho : Acquiring (aorder dflt op mo)) :
    (given mo).acquires = true := by
  subst h
  cases mo with
  | none => rfl
  | some o => exact ho.acquires

/-- A thread that gives the turn away and gets it back comes after the thread that gave it before, if that was inside. -/
theorem turn_way (h : Run c0 v0 threads flag turn) {t x n k t' x' k' l c c' : Nat} {v : BitVec (D.C turn).w} {s s' r : _} {e' : Event D δ}
    (ht : t < 2) (ht' : t' < 2) (hne : t ≠ t') (hi : Inside Sc threads flag turn t x n k)
    (he' : eventAt threads t' x' = some e') (hkl : k' < l) (hl : l < x')
    (hs : eventAt threads t k = some (.num turn s)) (hc : s.acc = .write c)
    (hs' : eventAt threads t' k' = some (.num turn s')) (hc' : s'.acc = .write c') (hlt : c < c')
    (h1 : eventAt threads t' l = some (.num turn r)) (h2 : r.call.1 = .load) (h3 : r.res = some v) (h4 : v.toNat = t')
    (h5 : Acquiring (aorder D.dflt r.call.1 r.call.2)) : Past threads t x t' x' := by
  obtain ⟨m, val, hh⟩ := h.histories.num turn
  have call : ∀ {t n r}, eventAt threads t n = some (.num turn r) →
      callAt (part (Event.num? turn) threads) t (before (Event.num? turn) threads t n) = some r := fun h => part_callAt h (num?_eq turn _)
  have does : ∀ {t n r}, eventAt threads t n = some (.num turn r) → Does (aimpl (D.C turn) D.dflt) val r := by
    intro t n r h
    obtain ⟨rs, h1, h2⟩ := callAt_mem (call h)
    exact hh.does rs h1 r h2
  have ordered : ∀ {t n n' r r'}, eventAt threads t n = some (.num turn r) → eventAt threads t n' = some (.num turn r') → n < n' →
      Coherent r.acc r'.acc := fun h h' hn => hh.ordered (call h) (call h') (before_lt h (num?_eq turn _) hn)
  obtain ⟨p, f, g, hp, hres, e1⟩ := load_does h2 (does h1)
  have hcp : c' < p := by
    have := ordered hs' h1 hkl
    rw [hc', hp] at this
    exact this
  have hpm := hh.pos_le (call h1)
  rw [hp] at hpm
  obtain ⟨u, i, q, hq, hqa⟩ := hh.writer (p - 1) (by simp only [Acc.pos] at hpm; omega)
  obtain ⟨z, e, z1, z2, -⟩ := callAt_part hq
  rw [num?_some z2] at z1
  have hnl : q.call.1 ≠ .load := by
    intro hl
    obtain ⟨p', _, _, hp', _⟩ := load_does hl (does z1)
    rw [hqa] at hp'; cases hp'
  obtain ⟨hu, ⟨w, hw, hwu⟩, hrel⟩ := (h.turns u z q z1).resolve_left hnl
  obtain ⟨j, f', g', hj, hval, e2⟩ := store_does hw (does z1)
  rw [hqa] at hj
  cases hj
  have hvw : v = w := by
    rw [show p - 1 + 1 = p by omega] at hval
    rw [hval, Atomic.narrow, Atomic.narrow_widen (h.decls.elem turn), h3] at hres
    exact Option.some.inj hres
  subst hvw
  obtain rfl : u = t := by omega
  have hkz : k < z := by
    rcases Nat.lt_trichotomy k z with hlt | rfl | hlt
    · exact hlt
    · rw [hs] at z1; cases z1; rw [hc] at hqa; cases hqa; omega
    · have := ordered z1 hs hlt
      rw [hqa, hc] at this
      simp only [Coherent] at this
      omega
  have hxz : x ≤ z := Nat.le_of_not_lt fun hzx => hnl (hi.left z q hkz hzx z1)
  refine ⟨z, _, hxz, z1, .trans _ _ _ _ _ _ (.num turn u z t' l _ _ z1 h1 ⟨q, r, _, _, _, _, _, _, _, _, p - 1, call z1, call h1, e2, e1,
    by decide, hrel.releases, by decide, load_acquires h2 h5, hqa, ?_, ?_⟩) (.same _ _ _ _ _ h1 he' hl)⟩
  · simp only [hp, Acc.pos]; omega
  · intro i hi1 hi2
    simp only [hp, Acc.pos] at hi2
    omega

/-- If the first thread has found the flag of the other 0, and gave the turn away first if it found it before the flag was raised. -/
theorem flag_way (h : Run c0 v0 threads flag turn) {t x n k t' x' n' k' : Nat} {e e' : Event D δ} (ht : t < 2) (ht' : t' < 2) (hne : t ≠ t')
    (hi : Inside Sc threads flag turn t x n k) (hi' : Inside Sc threads flag turn t' x' n' k') (he : eventAt threads t x = some e)
    (he' : eventAt threads t' x' = some e')
    (hf : ∃ l r, k < l ∧ l < x ∧ eventAt threads t l = some (.num (flag t') r) ∧ r.call.1 = .load ∧ r.res = some 0#_ ∧
      Sc (aorder D.dflt r.call.1 r.call.2)) : Past threads t x t' x' ∨ Past threads t' x' t x := by
  have does : ∀ {a t n r}, eventAt threads t n = some (.num a r) → ∃ val, Does (aimpl (D.C a) D.dflt) val r := by
    intro a t n r hr
    obtain ⟨m, val, hh⟩ := h.histories.num a
    obtain ⟨rs, h1, h2⟩ := callAt_mem (part_callAt hr (num?_eq a _))
    exact ⟨val, hh.does rs h1 r h2⟩
  obtain ⟨l, r, c1, c2, c3, c4, c5, c6⟩ := hf
  obtain ⟨s, v, a1, a2, a4, a3⟩ := hi.raised
  obtain ⟨s', v', b1, b2, b4, b3⟩ := hi'.raised
  obtain ⟨_, k1⟩ := does a1
  obtain ⟨_, k2⟩ := does b1
  obtain ⟨_, k3⟩ := does c3
  obtain ⟨j, _, _, w1, -⟩ := store_does a2 k1
  obtain ⟨j', _, _, w2, -⟩ := store_does b2 k2
  obtain ⟨p, _, _, w3, -⟩ := load_does c4 k3
  by_cases q : j' < p
  · obtain ⟨z, r1, z1, z2, -, z3⟩ := one_way h.decls h.histories (fun u m q => h.own u t' m q ht') he (hi'.before.1.trans hi'.before.2) b2 b4
      hi'.kept c2 c3 c4 c5 c6 w3 b1 w2 q
    exact .inr ⟨z, _, z1, z2, z3⟩
  obtain ⟨S, hS⟩ := h.order
  obtain ⟨g, d1, d2, d3⟩ := hi.gave
  obtain ⟨g', d1', d2', d3'⟩ := hi'.gave
  have m0 := (hS.mem t n).mpr ⟨_, a1, a3⟩
  have m1 := (hS.mem t k).mpr ⟨_, d1, d3⟩
  have m2 := (hS.mem t l).mpr ⟨_, c3, c6⟩
  have m3 := (hS.mem t' n').mpr ⟨_, b1, b3⟩
  have m4 := (hS.mem t' k').mpr ⟨_, d1', d3'⟩
  obtain ⟨i1, j1, l1, f1, g1⟩ := hS.program t k l m1 m2 c1
  obtain ⟨i2, j2, l2, f2, g2⟩ := hS.num _ t l t' n' r s' m2 m3 c3 b1 (by rw [w3, w2]; exact Nat.le_of_not_lt q)
  obtain ⟨i3, j3, l3, f3, g3⟩ := hS.program t' n' k' m3 m4 hi'.before.1
  obtain ⟨i0, j0, l0, f0, g0⟩ := hS.program t n k m0 m1 hi.before.1
  have y0 := SeqCst.index hS.nodup g0 f1
  have y1 := SeqCst.index hS.nodup g1 f2
  have y2 := SeqCst.index hS.nodup g2 f3
  left
  have hask := hi'.asked
  rw [other ht' ht (Ne.symm hne)] at hask
  rcases hask with ⟨l', r', x1, x2, x3, x4, x5, x6⟩ | ⟨l', r', v1, x1, x2, x3, x4, x5, x6, x7⟩
  · obtain ⟨_, k4⟩ := does x3
    obtain ⟨p', _, _, w4, -⟩ := load_does x4 k4
    by_cases q' : j < p'
    · obtain ⟨z, r1, z1, z2, -, z3⟩ := one_way h.decls h.histories (fun u m q => h.own u t m q ht) he' (hi.before.1.trans hi.before.2) a2 a4
        hi.kept x2 x3 x4 x5 x6 w4 a1 w1 q'
      exact ⟨z, _, z1, z2, z3⟩
    · exfalso
      have m5 := (hS.mem t' l').mpr ⟨_, x3, x6⟩
      obtain ⟨i4, j4, l4, f4, g4⟩ := hS.program t' k' l' m4 m5 x1
      obtain ⟨i5, j5, l5, f5, g5⟩ := hS.num _ t' l' t n r' s m5 m0 x3 a1 (by rw [w4, w1]; exact Nat.le_of_not_lt q')
      have y3 := SeqCst.index hS.nodup g3 f4
      have y4 := SeqCst.index hS.nodup g4 f5
      have y5 := SeqCst.index hS.nodup g5 f0
      omega
  · obtain ⟨-, ⟨u, hu, -⟩, -⟩ := (h.turns t k g d1).resolve_left d2
    obtain ⟨-, ⟨u', hu', -⟩, -⟩ := (h.turns t' k' g' d1').resolve_left d2'
    obtain ⟨_, k4⟩ := does d1
    obtain ⟨_, k5⟩ := does d1'
    obtain ⟨c, _, _, w4, -⟩ := store_does hu k4
    obtain ⟨c', _, _, w5, -⟩ := store_does hu' k5
    refine turn_way h ht ht' hne hi he' x1 x2 d1 w4 d1' w5 ?_ x3 x4 x5 x6 x7
    rcases Nat.lt_trichotomy c c' with hlt | rfl | hlt
    · exact hlt
    · exfalso
      obtain ⟨m, val, hh⟩ := h.histories.num turn
      exact hne (hh.unique (part_callAt d1 (num?_eq turn _)) (part_callAt d1' (num?_eq turn _)) w4 w5).1
    · exfalso
      obtain ⟨i4, j4, l4, f4, g4⟩ := hS.num _ t' k' t k g' g m4 m1 d1' d1 (by rw [w4, w5]; exact hlt)
      have y3 := SeqCst.index hS.nodup g3 f4
      have y4 := SeqCst.index hS.nodup g4 f1
      omega

/-! ## Properties -/

/-- **C165, one at a time.** Of two events of the two threads while they are inside, one happens before the other, or is followed by a call of its thread that
does. -/
theorem C165_exclusive (h : Run c0 v0 threads flag turn) {t x n k t' x' n' k' : Nat} {e e' : Event D δ} (ht : t < 2) (ht' : t' < 2) (hne : t ≠ t')
    (hi : Inside Sc threads flag turn t x n k) (hi' : Inside Sc threads flag turn t' x' n' k') (he : eventAt threads t x = some e)
    (he' : eventAt threads t' x' = some e') : Past threads t x t' x' ∨ Past threads t' x' t x := by
  have hask := hi.asked
  rw [other ht ht' hne] at hask
  have hask' := hi'.asked
  rw [other ht' ht (Ne.symm hne)] at hask'
  rcases hask with hf | ⟨l, r, v, x1, x2, x3, x4, x5, x6, x7⟩
  · exact flag_way h ht ht' hne hi hi' he he' hf
  rcases hask' with hf | ⟨l', r', v', x1', x2', x3', x4', x5', x6', x7'⟩
  · exact (flag_way h ht' ht (Ne.symm hne) hi' hi he' he hf).symm
  obtain ⟨m, val, hh⟩ := h.histories.num turn
  have does : ∀ {t n r}, eventAt threads t n = some (.num turn r) → Does (aimpl (D.C turn) D.dflt) val r := by
    intro t n r hr
    obtain ⟨rs, h1, h2⟩ := callAt_mem (part_callAt hr (num?_eq turn _))
    exact hh.does rs h1 r h2
  obtain ⟨g, d1, d2, -⟩ := hi.gave
  obtain ⟨g', d1', d2', -⟩ := hi'.gave
  obtain ⟨-, ⟨u, hu, -⟩, -⟩ := (h.turns t k g d1).resolve_left d2
  obtain ⟨-, ⟨u', hu', -⟩, -⟩ := (h.turns t' k' g' d1').resolve_left d2'
  obtain ⟨c, _, _, w4, -⟩ := store_does hu (does d1)
  obtain ⟨c', _, _, w5, -⟩ := store_does hu' (does d1')
  rcases Nat.lt_trichotomy c c' with hlt | rfl | hlt
  · exact .inl (turn_way h ht ht' hne hi he' x1' x2' d1 w4 d1' w5 hlt x3' x4' x5' x6' x7')
  · exact absurd (hh.unique (part_callAt d1 (num?_eq turn _)) (part_callAt d1' (num?_eq turn _)) w4 w5).1 hne
  · exact .inr (turn_way h ht' ht (Ne.symm hne) hi' he x1 x2 d1' w5 d1 w4 hlt x3 x4 x5 x6 x7)

/-- **C165, not both wait.** If the two threads, each after it has given the turn away, load the turn and see the same store (from some time on, if both
wait, both see the last one), one of them may go in. -/
theorem C165_not_both_wait (h : Run c0 v0 threads flag turn) {k l p l' : Nat}
    {s r r' : Rec (ACall (D.C turn)) (Option (BitVec (D.C turn).w))}
    (hk : eventAt threads 0 k = some (.num turn s)) (hs : s.call.1 ≠ .load) (hkl : k < l)
    (hl : eventAt threads 0 l = some (.num turn r)) (h1 : r.call.1 = .load) (hr : r.acc = .read p)
    (hl' : eventAt threads 1 l' = some (.num turn r')) (h1' : r'.call.1 = .load) (hr' : r'.acc = .read p) :
    (∃ v, r.res = some v ∧ v.toNat = 0) ∨ ∃ v, r'.res = some v ∧ v.toNat = 1 := by
  obtain ⟨m, val, hh⟩ := h.histories.num turn
  have call : ∀ {t n r}, eventAt threads t n = some (.num turn r) →
      callAt (part (Event.num? turn) threads) t (before (Event.num? turn) threads t n) = some r := fun h => part_callAt h (num?_eq turn _)
  have does : ∀ {t n r}, eventAt threads t n = some (.num turn r) → Does (aimpl (D.C turn) D.dflt) val r := by
    intro t n r h
    obtain ⟨rs, h1, h2⟩ := callAt_mem (call h)
    exact hh.does rs h1 r h2
  obtain ⟨_, _, _, e1, hres, -⟩ := load_does h1 (does hl)
  obtain ⟨_, _, _, e1', hres', -⟩ := load_does h1' (does hl')
  rw [hr] at e1
  rw [hr'] at e1'
  cases e1
  cases e1'
  obtain ⟨-, ⟨u, hu, -⟩, -⟩ := (h.turns 0 k s hk).resolve_left hs
  obtain ⟨c, _, _, hc, -⟩ := store_does hu (does hk)
  have hcp : c < p := by
    have := hh.ordered (call hk) (call hl) (before_lt hk (num?_eq turn _) hkl)
    rw [hc, hr] at this
    exact this
  have hpm := hh.pos_le (call hl)
  rw [hr] at hpm
  obtain ⟨u, i, q, hq, hqa⟩ := hh.writer (p - 1) (by simp only [Acc.pos] at hpm; omega)
  obtain ⟨z, e, z1, z2, -⟩ := callAt_part hq
  rw [num?_some z2] at z1
  have hnl : q.call.1 ≠ .load := by
    intro hl
    obtain ⟨p', _, _, hp', _⟩ := load_does hl (does z1)
    rw [hqa] at hp'; cases hp'
  obtain ⟨hu, ⟨w, hw, hwu⟩, -⟩ := (h.turns u z q z1).resolve_left hnl
  obtain ⟨j, f', g', hj, hval, e2⟩ := store_does hw (does z1)
  rw [hqa] at hj
  cases hj
  rw [show p - 1 + 1 = p by omega] at hval
  rw [hval, Atomic.narrow, Atomic.narrow_widen (h.decls.elem turn)] at hres hres'
  obtain rfl | rfl : u = 0 ∨ u = 1 := by omega
  · exact .inr ⟨w, hres', hwu⟩
  · exact .inl ⟨w, hres, hwu⟩

/-- **C165, no data race.** -/
theorem C165_no_race (h : Run c0 v0 threads flag turn) {d : δ} (hd : Guarded Sc threads flag turn d) : ¬ Race threads d := by
  rintro ⟨t, x, m, t', x', m', he, he', -, hne, h1, h2⟩
  have past : ∀ {t x t' x' m}, eventAt threads t x = some (.plain d m) → Past threads t x t' x' → HB threads t x t' x' := by
    rintro t x t' x' m he ⟨z, e, hz, hr, hb⟩
    rcases Nat.lt_or_eq_of_le hz with hz | rfl
    · exact .trans _ _ _ _ _ _ (.same _ _ _ _ _ he hr hz) hb
    · exact hb
  by_cases ht : t = t'
  · subst ht
    rcases Nat.lt_trichotomy x x' with hl | hl | hl
    · exact h1 (.same _ _ _ _ _ he he' hl)
    · exact hne ⟨rfl, hl⟩
    · exact h2 (.same _ _ _ _ _ he' he hl)
  · obtain ⟨hlt, n, k, hi⟩ := hd t x m he
    obtain ⟨hlt', n', k', hi'⟩ := hd t' x' m' he'
    rcases C165_exclusive h hlt hlt' ht hi hi' he he' with hb | hb
    · exact h1 (past he hb)
    · exact h2 (past he' hb)

end

/-! ## Examples -/

/-- Three atomics, the turn and two flags. -/
def trio : Decls Unit (Option Bool) := ⟨fun _ => 8, fun _ => 5, fun _ => ⟨8, 32, false, false⟩, .seqCst⟩

theorem trio_ok : trio.Ok := ⟨fun _ => .inl rfl, fun _ => show 0 < 5 by decide, fun _ => show 5 ≤ 8 by decide, fun _ => show 8 ≤ 32 by decide⟩

/-- The flags of the two threads. -/
def two : Nat → Option Bool
  | 0 => some false
  | _ + 1 => some true

/-- The first thread uses the data, lowers its flag and comes again; the second one has given the turn away and gets it back by that. -/
def again : List (List (Event trio Nat)) :=
  [[.num (some false) ⟨(.store 1#8, none), none, .write 0⟩, .num none ⟨(.store 1#8, none), none, .write 0⟩,
    .num (some true) ⟨(.load, none), some 0#8, .read 0⟩, .plain 3 true, .num (some false) ⟨(.store 0#8, some .release), none, .write 1⟩,
    .num (some false) ⟨(.store 1#8, none), none, .write 2⟩, .num none ⟨(.store 1#8, none), none, .write 2⟩],
   [.num (some true) ⟨(.store 1#8, none), none, .write 0⟩, .num none ⟨(.store 0#8, none), none, .write 1⟩,
    .num none ⟨(.load, some .acquire), some 1#8, .read 3⟩, .plain 3 true]]

theorem again_histories : Histories (fun _ => 0#8) (fun _ => 0#8) again := by
  refine ⟨fun | () => ⟨0, fun _ => 0#8, .of_rules rfl ?_ ?_⟩, fun
    | none => ⟨3, fun n => [0#32, 1#32, 0#32, 1#32].getD n 0#32, .of_rules rfl ?_ ?_⟩
    | some false => ⟨3, fun n => [0#32, 1#32, 0#32, 1#32].getD n 0#32, .of_rules rfl ?_ ?_⟩
    | some true => ⟨1, fun n => [0#32, 1#32].getD n 0#32, .of_rules rfl ?_ ?_⟩⟩
  · intro rs hrs r hr
    fin_cases hrs <;> simp [Event.bits?] at hr
  · decide
  · intro rs hrs r hr
    fin_cases hrs <;> fin_cases hr
    · exact ⟨_, _, _, _, rfl, rfl, .inr ⟨by decide, 0, rfl, rfl⟩⟩
    · exact ⟨_, _, _, _, rfl, rfl, .inr ⟨by decide, 2, rfl, rfl⟩⟩
    · exact ⟨_, _, _, _, rfl, rfl, .inr ⟨by decide, 1, rfl, rfl⟩⟩
    · exact ⟨_, _, _, _, rfl, rfl, .inl ⟨rfl, 3, rfl⟩⟩
  · decide
  · intro rs hrs r hr
    fin_cases hrs <;> fin_cases hr
    · exact ⟨_, _, _, _, rfl, rfl, .inr ⟨by decide, 0, rfl, rfl⟩⟩
    · exact ⟨_, _, _, _, rfl, rfl, .inr ⟨by decide, 1, rfl, rfl⟩⟩
    · exact ⟨_, _, _, _, rfl, rfl, .inr ⟨by decide, 2, rfl, rfl⟩⟩
  · decide
  · intro rs hrs r hr
    fin_cases hrs <;> fin_cases hr
    · exact ⟨_, _, _, _, rfl, rfl, .inl ⟨rfl, 0, rfl⟩⟩
    · exact ⟨_, _, _, _, rfl, rfl, .inr ⟨by decide, 0, rfl, rfl⟩⟩
  · decide

theorem again_events {t n : Nat} {e : Event trio Nat} (h : eventAt again t n = some e) : t = 0 ∧ n < 7 ∨ t = 1 ∧ n < 4 := by
  match t with
  | 0 => exact .inl ⟨rfl, (List.getElem?_eq_some_iff.mp (show _[n]? = some e from h)).1⟩
  | 1 => exact .inr ⟨rfl, (List.getElem?_eq_some_iff.mp (show _[n]? = some e from h)).1⟩
  | _ + 2 => simp [eventAt, again] at h

def againOrder : List (Nat × Nat) := [(0, 0), (0, 1), (0, 2), (1, 0), (1, 1), (0, 5), (0, 6)]

theorem again_single : SingleOrder again againOrder where
  nodup := by decide
  mem := fun t n => by
    constructor
    · intro h
      simp only [againOrder, List.mem_cons, Prod.mk.injEq, List.not_mem_nil, or_false] at h
      rcases h with ⟨rfl, rfl⟩ | ⟨rfl, rfl⟩ | ⟨rfl, rfl⟩ | ⟨rfl, rfl⟩ | ⟨rfl, rfl⟩ | ⟨rfl, rfl⟩ | ⟨rfl, rfl⟩ <;> exact ⟨_, rfl, rfl⟩
    · rintro ⟨e, h, he⟩
      rcases again_events h with ⟨rfl, hn⟩ | ⟨rfl, hn⟩ <;> interval_cases n <;> first | decide | (cases h; cases he)
  program := fun t n n' h h' hn => by
    simp only [againOrder, List.mem_cons, Prod.mk.injEq, List.not_mem_nil, or_false] at h h'
    rcases h with ⟨rfl, rfl⟩ | ⟨rfl, rfl⟩ | ⟨rfl, rfl⟩ | ⟨rfl, rfl⟩ | ⟨rfl, rfl⟩ | ⟨rfl, rfl⟩ | ⟨rfl, rfl⟩ <;>
      rcases h' with ⟨h0, rfl⟩ | ⟨h0, rfl⟩ | ⟨h0, rfl⟩ | ⟨h0, rfl⟩ | ⟨h0, rfl⟩ | ⟨h0, rfl⟩ | ⟨h0, rfl⟩ <;>
      first
        | exact absurd hn (by decide)
        | exact absurd h0 (by decide)
        | exact ⟨0, 1, by decide, rfl, rfl⟩
        | exact ⟨0, 2, by decide, rfl, rfl⟩
        | exact ⟨0, 5, by decide, rfl, rfl⟩
        | exact ⟨0, 6, by decide, rfl, rfl⟩
        | exact ⟨1, 2, by decide, rfl, rfl⟩
        | exact ⟨1, 5, by decide, rfl, rfl⟩
        | exact ⟨1, 6, by decide, rfl, rfl⟩
        | exact ⟨2, 5, by decide, rfl, rfl⟩
        | exact ⟨2, 6, by decide, rfl, rfl⟩
        | exact ⟨3, 4, by decide, rfl, rfl⟩
        | exact ⟨5, 6, by decide, rfl, rfl⟩
  bits := fun k t n t' n' r r' h _ h1 _ _ => by
    simp only [againOrder, List.mem_cons, Prod.mk.injEq, List.not_mem_nil, or_false] at h
    rcases h with ⟨rfl, rfl⟩ | ⟨rfl, rfl⟩ | ⟨rfl, rfl⟩ | ⟨rfl, rfl⟩ | ⟨rfl, rfl⟩ | ⟨rfl, rfl⟩ | ⟨rfl, rfl⟩ <;> cases h1
  num := fun a t n t' n' r r' h h' h1 h2 hc => by
    simp only [againOrder, List.mem_cons, Prod.mk.injEq, List.not_mem_nil, or_false] at h h'
    rcases h with ⟨rfl, rfl⟩ | ⟨rfl, rfl⟩ | ⟨rfl, rfl⟩ | ⟨rfl, rfl⟩ | ⟨rfl, rfl⟩ | ⟨rfl, rfl⟩ | ⟨rfl, rfl⟩ <;>
      rcases h' with ⟨rfl, rfl⟩ | ⟨rfl, rfl⟩ | ⟨rfl, rfl⟩ | ⟨rfl, rfl⟩ | ⟨rfl, rfl⟩ | ⟨rfl, rfl⟩ | ⟨rfl, rfl⟩ <;> cases h1 <;> cases h2 <;>
      first
        | exact ⟨0, 5, by decide, rfl, rfl⟩
        | exact ⟨1, 4, by decide, rfl, rfl⟩
        | exact ⟨1, 6, by decide, rfl, rfl⟩
        | exact ⟨2, 3, by decide, rfl, rfl⟩
        | exact ⟨4, 6, by decide, rfl, rfl⟩
        | simp [Cob] at hc

theorem again_run : Run (fun _ => 0#8) (fun _ => 0#8) again two none where
  decls := trio_ok
  histories := again_histories
  order := ⟨_, again_single⟩
  own := fun t u n r hu h => by
    obtain rfl | rfl : u = 0 ∨ u = 1 := by omega
    · rcases again_events h with ⟨rfl, hn⟩ | ⟨rfl, hn⟩ <;> interval_cases n <;> cases h <;>
        first | exact .inl rfl | exact .inr ⟨rfl, ⟨_, .inl rfl⟩, .inr (.inr rfl)⟩ | exact .inr ⟨rfl, ⟨_, .inl rfl⟩, .inl rfl⟩
    · rcases again_events h with ⟨rfl, hn⟩ | ⟨rfl, hn⟩ <;> interval_cases n <;> cases h <;>
        first | exact .inl rfl | exact .inr ⟨rfl, ⟨_, .inl rfl⟩, .inr (.inr rfl)⟩
  turns := fun t n r h => by
    rcases again_events h with ⟨rfl, hn⟩ | ⟨rfl, hn⟩ <;> interval_cases n <;> cases h <;>
      first | exact .inl rfl | exact .inr ⟨by decide, ⟨_, .inl rfl, rfl⟩, .inr (.inr rfl)⟩

theorem again_first : Inside Sc again two none 0 3 0 1 where
  before := by decide
  raised := ⟨_, 1#8, rfl, .inl rfl, show 1#8 ≠ 0#8 by decide, rfl⟩
  kept := fun y r h1 h2 h => by interval_cases y <;> cases h
  gave := ⟨_, rfl, by simp, rfl⟩
  left := fun y r h1 h2 h => by interval_cases y; cases h
  asked := .inl ⟨2, _, by decide, by decide, rfl, rfl, rfl, rfl⟩

theorem again_second : Inside Sc again two none 1 3 0 1 where
  before := by decide
  raised := ⟨_, 1#8, rfl, .inl rfl, show 1#8 ≠ 0#8 by decide, rfl⟩
  kept := fun y r h1 h2 h => by interval_cases y <;> cases h
  gave := ⟨_, rfl, by simp, rfl⟩
  left := fun y r h1 h2 h => by interval_cases y; cases h; rfl
  asked := .inr ⟨2, _, 1#8, by decide, by decide, rfl, rfl, rfl, rfl, .inl rfl⟩

example : Past again 0 3 1 3 ∨ Past again 1 3 0 3 :=
  C165_exclusive again_run (by decide) (by decide) (by decide) again_first again_second rfl rfl

example : ¬ Race again 3 := C165_no_race again_run fun t x m h => by
  rcases again_events h with ⟨rfl, hn⟩ | ⟨rfl, hn⟩ <;> interval_cases x <;> cases h
  · exact ⟨by decide, 0, 1, again_first⟩
  · exact ⟨by decide, 0, 1, again_second⟩

/-- Both threads wait, and both see that the turn is the first one's. -/
def waiting : List (List (Event trio Nat)) :=
  [[.num (some false) ⟨(.store 1#8, none), none, .write 0⟩, .num none ⟨(.store 1#8, none), none, .write 0⟩,
    .num none ⟨(.load, some .acquire), some 0#8, .read 2⟩],
   [.num (some true) ⟨(.store 1#8, none), none, .write 0⟩, .num none ⟨(.store 0#8, none), none, .write 1⟩,
    .num none ⟨(.load, some .acquire), some 0#8, .read 2⟩]]

theorem waiting_histories : Histories (fun _ => 0#8) (fun _ => 0#8) waiting := by
  refine ⟨fun | () => ⟨0, fun _ => 0#8, .of_rules rfl ?_ ?_⟩, fun
    | none => ⟨2, fun n => [0#32, 1#32, 0#32].getD n 0#32, .of_rules rfl ?_ ?_⟩
    | some false => ⟨1, fun n => [0#32, 1#32].getD n 0#32, .of_rules rfl ?_ ?_⟩
    | some true => ⟨1, fun n => [0#32, 1#32].getD n 0#32, .of_rules rfl ?_ ?_⟩⟩
  · intro rs hrs r hr
    fin_cases hrs <;> simp [Event.bits?] at hr
  · decide
  · intro rs hrs r hr
    fin_cases hrs <;> fin_cases hr
    · exact ⟨_, _, _, _, rfl, rfl, .inr ⟨by decide, 0, rfl, rfl⟩⟩
    · exact ⟨_, _, _, _, rfl, rfl, .inl ⟨rfl, 2, rfl⟩⟩
    · exact ⟨_, _, _, _, rfl, rfl, .inr ⟨by decide, 1, rfl, rfl⟩⟩
    · exact ⟨_, _, _, _, rfl, rfl, .inl ⟨rfl, 2, rfl⟩⟩
  · decide
  · intro rs hrs r hr
    fin_cases hrs <;> fin_cases hr
    exact ⟨_, _, _, _, rfl, rfl, .inr ⟨by decide, 0, rfl, rfl⟩⟩
  · decide
  · intro rs hrs r hr
    fin_cases hrs <;> fin_cases hr
    exact ⟨_, _, _, _, rfl, rfl, .inr ⟨by decide, 0, rfl, rfl⟩⟩
  · decide

theorem waiting_events {t n : Nat} {e : Event trio Nat} (h : eventAt waiting t n = some e) : (t = 0 ∨ t = 1) ∧ n < 3 := by
  match t with
  | 0 => exact ⟨.inl rfl, (List.getElem?_eq_some_iff.mp (show _[n]? = some e from h)).1⟩
  | 1 => exact ⟨.inr rfl, (List.getElem?_eq_some_iff.mp (show _[n]? = some e from h)).1⟩
  | _ + 2 => simp [eventAt, waiting] at h

def waitingOrder : List (Nat × Nat) := [(0, 0), (0, 1), (1, 0), (1, 1)]

theorem waiting_run : Run (fun _ => 0#8) (fun _ => 0#8) waiting two none where
  decls := trio_ok
  histories := waiting_histories
  order := ⟨waitingOrder, {
    nodup := by decide
    mem := fun t n => by
      constructor
      · intro h
        simp only [waitingOrder, List.mem_cons, Prod.mk.injEq, List.not_mem_nil, or_false] at h
        rcases h with ⟨rfl, rfl⟩ | ⟨rfl, rfl⟩ | ⟨rfl, rfl⟩ | ⟨rfl, rfl⟩ <;> exact ⟨_, rfl, rfl⟩
      · rintro ⟨e, h, he⟩
        obtain ⟨rfl | rfl, hn⟩ := waiting_events h <;> interval_cases n <;> first | decide | (cases h; cases he)
    program := fun t n n' h h' hn => by
      simp only [waitingOrder, List.mem_cons, Prod.mk.injEq, List.not_mem_nil, or_false] at h h'
      rcases h with ⟨rfl, rfl⟩ | ⟨rfl, rfl⟩ | ⟨rfl, rfl⟩ | ⟨rfl, rfl⟩ <;>
        rcases h' with ⟨h0, rfl⟩ | ⟨h0, rfl⟩ | ⟨h0, rfl⟩ | ⟨h0, rfl⟩ <;>
        first
          | exact absurd hn (by decide)
          | exact absurd h0 (by decide)
          | exact ⟨0, 1, by decide, rfl, rfl⟩
          | exact ⟨2, 3, by decide, rfl, rfl⟩
    bits := fun k t n t' n' r r' h _ h1 _ _ => by
      simp only [waitingOrder, List.mem_cons, Prod.mk.injEq, List.not_mem_nil, or_false] at h
      rcases h with ⟨rfl, rfl⟩ | ⟨rfl, rfl⟩ | ⟨rfl, rfl⟩ | ⟨rfl, rfl⟩ <;> cases h1
    num := fun a t n t' n' r r' h h' h1 h2 hc => by
      simp only [waitingOrder, List.mem_cons, Prod.mk.injEq, List.not_mem_nil, or_false] at h h'
      rcases h with ⟨rfl, rfl⟩ | ⟨rfl, rfl⟩ | ⟨rfl, rfl⟩ | ⟨rfl, rfl⟩ <;>
        rcases h' with ⟨rfl, rfl⟩ | ⟨rfl, rfl⟩ | ⟨rfl, rfl⟩ | ⟨rfl, rfl⟩ <;> cases h1 <;> cases h2 <;>
        first
          | exact ⟨1, 3, by decide, rfl, rfl⟩
          | simp [Cob] at hc }⟩
  own := fun t u n r hu h => by
    obtain rfl | rfl : u = 0 ∨ u = 1 := by omega
    · obtain ⟨rfl | rfl, hn⟩ := waiting_events h <;> interval_cases n <;> cases h
      exact .inr ⟨rfl, ⟨_, .inl rfl⟩, .inr (.inr rfl)⟩
    · obtain ⟨rfl | rfl, hn⟩ := waiting_events h <;> interval_cases n <;> cases h
      exact .inr ⟨rfl, ⟨_, .inl rfl⟩, .inr (.inr rfl)⟩
  turns := fun t n r h => by
    obtain ⟨rfl | rfl, hn⟩ := waiting_events h <;> interval_cases n <;> cases h <;>
      first | exact .inl rfl | exact .inr ⟨by decide, ⟨_, .inl rfl, rfl⟩, .inr (.inr rfl)⟩

example := C165_not_both_wait waiting_run (k := 1) (l := 2) (l' := 2) (p := 2) rfl (by simp) (by decide) rfl rfl rfl rfl rfl rfl

/-- Both threads find the flag of the other 0. -/
def both : List (List (Event trio Nat)) :=
  [[.num (some false) ⟨(.store 1#8, some .release), none, .write 0⟩, .num none ⟨(.store 1#8, some .release), none, .write 0⟩,
    .num (some true) ⟨(.load, some .acquire), some 0#8, .read 0⟩, .plain 3 true],
   [.num (some true) ⟨(.store 1#8, some .release), none, .write 0⟩, .num none ⟨(.store 0#8, some .release), none, .write 1⟩,
    .num (some false) ⟨(.load, some .acquire), some 0#8, .read 0⟩, .plain 3 true]]

theorem both_histories : Histories (fun _ => 0#8) (fun _ => 0#8) both := by
  refine ⟨fun | () => ⟨0, fun _ => 0#8, .of_rules rfl ?_ ?_⟩, fun
    | none => ⟨2, fun n => [0#32, 1#32, 0#32].getD n 0#32, .of_rules rfl ?_ ?_⟩
    | some false => ⟨1, fun n => [0#32, 1#32].getD n 0#32, .of_rules rfl ?_ ?_⟩
    | some true => ⟨1, fun n => [0#32, 1#32].getD n 0#32, .of_rules rfl ?_ ?_⟩⟩
  · intro rs hrs r hr
    fin_cases hrs <;> simp [Event.bits?] at hr
  · decide
  · intro rs hrs r hr
    fin_cases hrs <;> fin_cases hr
    · exact ⟨_, _, _, _, rfl, rfl, .inr ⟨by decide, 0, rfl, rfl⟩⟩
    · exact ⟨_, _, _, _, rfl, rfl, .inr ⟨by decide, 1, rfl, rfl⟩⟩
  · decide
  · intro rs hrs r hr
    fin_cases hrs <;> fin_cases hr
    · exact ⟨_, _, _, _, rfl, rfl, .inr ⟨by decide, 0, rfl, rfl⟩⟩
    · exact ⟨_, _, _, _, rfl, rfl, .inl ⟨rfl, 0, rfl⟩⟩
  · decide
  · intro rs hrs r hr
    fin_cases hrs <;> fin_cases hr
    · exact ⟨_, _, _, _, rfl, rfl, .inl ⟨rfl, 0, rfl⟩⟩
    · exact ⟨_, _, _, _, rfl, rfl, .inr ⟨by decide, 0, rfl, rfl⟩⟩
  · decide

theorem both_events {t n : Nat} {e : Event trio Nat} (h : eventAt both t n = some e) : (t = 0 ∨ t = 1) ∧ n < 4 := by
  match t with
  | 0 => exact ⟨.inl rfl, (List.getElem?_eq_some_iff.mp (show _[n]? = some e from h)).1⟩
  | 1 => exact ⟨.inr rfl, (List.getElem?_eq_some_iff.mp (show _[n]? = some e from h)).1⟩
  | _ + 2 => simp [eventAt, both] at h

theorem both_hb {t n t' n' : Nat} (h : HB both t n t' n') : t = t' ∧ n < n' := by
  induction h with
  | same _ _ _ _ _ _ _ hn => exact ⟨rfl, hn⟩
  | bits k t n t' n' q q' h h' hs =>
    obtain ⟨rfl | rfl, hn⟩ := both_events h <;> interval_cases n <;> cases h
  | num a t n t' n' q q' h h' hs =>
    obtain ⟨r, r', _, _, _, _, _, _, _, _, j, _, h2, _, h4, _, _, h5, _, _, h3, _⟩ := hs
    rw [part_callAt h' (num?_eq a _), Option.some.injEq] at h2
    subst h2
    obtain ⟨rfl | rfl, hn⟩ := both_events h' <;> interval_cases n' <;> cases h' <;>
      first | exact absurd h3 (Nat.not_lt_zero j) | (cases h4; exact absurd rfl h5)
  | trans _ _ _ _ _ _ _ _ ih ih' => exact ⟨ih.1.trans ih'.1, ih.2.trans ih'.2⟩

/-- **C165, the orders matter.** If the stores release and the loads acquire, there is an execution with a data race. -/
theorem C165_acquire_release_race : ∃ threads : List (List (Event trio Nat)), Run (fun _ => 0#8) (fun _ => 0#8) threads two none ∧
    Consistent threads ∧ Guarded (fun o => o = .release ∨ o = .acquire) threads two none 3 ∧ Race threads 3 := by
  refine ⟨both, ⟨trio_ok, both_histories, ⟨[], .nil, fun t n => ⟨fun h => (by cases h), ?_⟩, fun _ _ _ h => (by cases h),
    fun _ _ _ _ _ _ _ h => (by cases h), fun _ _ _ _ _ _ _ h => (by cases h)⟩, ?_, ?_⟩, ?_, ?_, 0, 3, true, 1, 3, true, rfl, rfl, .inl rfl,
    by decide, fun h => absurd (both_hb h).1 (by decide), fun h => absurd (both_hb h).1 (by decide)⟩
  · rintro ⟨e, h, he⟩
    obtain ⟨rfl | rfl, hn⟩ := both_events h <;> interval_cases n <;> cases h <;> cases he
  · intro t u n r hu h
    obtain rfl | rfl : u = 0 ∨ u = 1 := by omega
    · obtain ⟨rfl | rfl, hn⟩ := both_events h <;> interval_cases n <;> cases h <;>
        first | exact .inl rfl | exact .inr ⟨rfl, ⟨_, .inl rfl⟩, .inl rfl⟩
    · obtain ⟨rfl | rfl, hn⟩ := both_events h <;> interval_cases n <;> cases h <;>
        first | exact .inl rfl | exact .inr ⟨rfl, ⟨_, .inl rfl⟩, .inl rfl⟩
  · intro t n r h
    obtain ⟨rfl | rfl, hn⟩ := both_events h <;> interval_cases n <;> cases h <;> exact .inr ⟨by decide, ⟨_, .inl rfl, rfl⟩, .inl rfl⟩
  · intro a t n t' n' r r' h h' hb
    obtain ⟨rfl, hlt⟩ := both_hb hb
    obtain ⟨-, hn'⟩ := both_events h'
    obtain ⟨rfl | rfl, hn⟩ := both_events h <;> interval_cases n <;> interval_cases n' <;> cases h <;> cases h'
  · intro t x m h
    obtain ⟨rfl | rfl, hn⟩ := both_events h <;> interval_cases x <;> cases h
    · exact ⟨by decide, 0, 1, by decide, ⟨_, 1#8, rfl, .inl rfl, show 1#8 ≠ 0#8 by decide, .inl rfl⟩,
        fun y r h1 h2 h => (by interval_cases y <;> cases h), ⟨_, rfl, by simp, .inl rfl⟩, fun y r h1 h2 h => (by interval_cases y; first | (cases h; done) | (cases h; rfl)),
        .inl ⟨2, _, by decide, by decide, rfl, rfl, rfl, .inr rfl⟩⟩
    · exact ⟨by decide, 0, 1, by decide, ⟨_, 1#8, rfl, .inl rfl, show 1#8 ≠ 0#8 by decide, .inl rfl⟩,
        fun y r h1 h2 h => (by interval_cases y <;> cases h), ⟨_, rfl, by simp, .inl rfl⟩, fun y r h1 h2 h => (by interval_cases y; first | (cases h; done) | (cases h; rfl)),
        .inl ⟨2, _, by decide, by decide, rfl, rfl, rfl, .inr rfl⟩⟩

end Verif.Peterson
