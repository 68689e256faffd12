import Verif.FlagLock.Model
import Verif.SeqCst.Props
import Verif.Seqlock.Props

/-!
# Properties of a lock made of one flag per thread (C163)
-/

namespace Verif.FlagLock

open Verif.Sync Verif.Conc
open Verif.Ring (count count_mono count_succ count_change count_same changes_num Same)
open Verif.SeqCst (SingleOrder IsSeqCst Earlier Cob)

variable {κ γ δ : Type} {D : Decls κ γ} [DecidableEq κ] [DecidableEq γ]

/-- The order of the calls that matter. -/
def Sc (o : MOrd) : Prop := o = .seqCst

/-- Thread `t` stores 0 in its flag, after its event `x` or there, before event `x'` of thread `t'`. -/
def Left (threads : List (List (Event D δ))) (flag : Nat → γ) (t x t' x' : Nat) : Prop :=
  ∃ z r, x ≤ z ∧ eventAt threads t z = some (.num (flag t) r) ∧ (r.call.1 = .store 0#_ ∨ r.call.1 = .assign 0#_) ∧ HB threads t z t' x'

section

variable {c0 : (k : κ) → BitVec (D.w k)} {v0 : (a : γ) → BitVec (D.C a).w} {threads : List (List (Event D δ))} {flag : Nat → γ}

/-! ## Lemmas -/

theorem load_order {w : Nat} {dflt : MOrd} {op : Atomic.Op w} {mo : Option MOrd} (h : op = .load) (ho : aorder dflt op mo = .seqCst) :
    mo = none ∨ ∃ o, mo = some o ∧ Acquiring o := by
  subst h
  cases mo with
  | none => exact .inl rfl
  | some o => exact .inr ⟨o, rfl, .inr (.inr ho)⟩

theorem len {t n : Nat} {e : Event D δ} (h : eventAt threads t n = some e) : t < threads.length := by
  unfold eventAt at h
  cases ht : threads[t]? with
  | none => rw [ht] at h; cases h
  | some _ => exact (List.getElem?_eq_some_iff.mp ht).1

/-- A load that finds 0 in a flag, and something later than when it was raised, comes after the flag was lowered. -/
theorem one_way (hD : D.Ok) (hh : Histories c0 v0 threads) {a : γ} {t x t' x' n l p c : Nat} {r s : _} {v : BitVec (D.C a).w}
    (own : ∀ u m q, eventAt threads u m = some (.num a q) → q.call.1 = .load ∨
      u = t ∧ (∃ v, q.call.1 = .store v ∨ q.call.1 = .assign v) ∧ Releasing (aorder D.dflt q.call.1 q.call.2))
    {e' : Event D δ} (he' : eventAt threads t' x' = some e') (hnx : n < x)
    (g2 : s.call.1 = .store v ∨ s.call.1 = .assign v) (g3 : v ≠ 0#_)
    (kept : ∀ y r, n < y → y < x → eventAt threads t y = some (.num a r) → r.call.1 = .load) (hl : l < x')
    (h1 : eventAt threads t' l = some (.num a r)) (h2 : r.call.1 = .load) (h3 : r.res = some 0#_)
    (h4 : aorder D.dflt r.call.1 r.call.2 = .seqCst) (h5 : r.acc = .read p)
    (h6 : eventAt threads t n = some (.num a s)) (h7 : s.acc = .write c) (hp : c < p) :
    ∃ z r, x ≤ z ∧ eventAt threads t z = some (.num a r) ∧ (r.call.1 = .store 0#_ ∨ r.call.1 = .assign 0#_) ∧ HB threads t z t' x' := by
  obtain ⟨V, hV⟩ := Seqlock.single (a := a) (t0 := t) hD hh fun u m q hq => by
    rcases own u m q hq with hq | ⟨rfl, hs, _⟩
    · exact .inl hq
    · exact .inr ⟨rfl, hs⟩
  have hne : s.call.1 ≠ .load := by rcases g2 with g | g <;> rw [g] <;> simp
  obtain ⟨g4, g5⟩ := hV.store n s h6 hne
  rw [h7] at g4
  cases g4
  obtain ⟨p', k1, k2, k3⟩ := hV.load t' l r h1 h2
  rw [h5] at k1
  cases k1
  have hp' : p ≠ count threads a t n + 1 := by
    rintro rfl
    rw [g5 v g2, h3] at k2
    exact g3 (Option.some.inj k2).symm
  obtain ⟨z, q, z1, z2, z3⟩ := k3 (p - 1) (by omega)
  have hxz : x ≤ z := by
    refine Nat.le_of_not_lt fun hzx => ?_
    have e1 := count_change z1 z2 hzx
    have e2 : count threads a t (n + 1) = count threads a t x := count_same hnx fun y q' hy hy' hq => kept y q' hy hy' hq
    have e3 := count_succ (a := a) h6
    rw [if_pos (changes_num.mpr hne)] at e3
    omega
  obtain ⟨-, ⟨u, hu⟩, hrel⟩ := (own t z q z1).resolve_left z2
  have hu0 : u = 0#_ := by
    have := (hV.store z q z1 z2).2 u hu
    rw [z3, show p - 1 + 1 = p by omega] at this
    rw [h3, this] at k2
    exact (Option.some.inj k2).symm
  subst hu0
  refine ⟨z, q, hxz, z1, hu, .trans _ _ _ _ _ _ (hV.sync z q t' l r z1 z2 hrel h1 h2 (load_order h2 h4) ?_) (.same _ _ _ _ _ h1 he' hl)⟩
  rw [h5, z3]
  congr 1
  omega

/-! ## Properties -/

/-- **C163, one at a time.** If two threads are inside, one of them has lowered its flag before, in the order of happens-before: what is done inside by
different threads is never done at the same time. -/
theorem C163_exclusive (h : Run c0 v0 threads flag) {t x n t' x' n' : Nat} (hi : Inside Sc Sc threads flag t x n)
    (hi' : Inside Sc Sc threads flag t' x' n') (hne : t ≠ t') {e e' : Event D δ} (he : eventAt threads t x = some e)
    (he' : eventAt threads t' x' = some e') : Left threads flag t x t' x' ∨ Left threads flag t' x' t x := by
  obtain ⟨s, v, a1, a2, a4, a3⟩ := hi.raised
  obtain ⟨s', v', b1, b2, b4, b3⟩ := hi'.raised
  obtain ⟨l, r, c1, c2, c3, c4, c5, c6⟩ := hi.asked t' (len he') (Ne.symm hne)
  obtain ⟨l', r', d1, d2, d3, d4, d5, d6⟩ := hi'.asked t (len he) hne
  have does : ∀ {a t n r}, eventAt threads t n = some (.num a r) → ∃ val, Does (aimpl (D.C a) D.dflt) val r := by
    intro a t n r hr
    obtain ⟨m, val, hh⟩ := h.histories.num a
    obtain ⟨rs, h1, h2⟩ := callAt_mem (part_callAt hr (num?_eq a _))
    exact ⟨val, hh.does rs h1 r h2⟩
  obtain ⟨_, k1⟩ := does a1
  obtain ⟨_, k2⟩ := does b1
  obtain ⟨_, k3⟩ := does c3
  obtain ⟨_, k4⟩ := does d3
  obtain ⟨j, _, _, w1, -⟩ := store_does a2 k1
  obtain ⟨j', _, _, w2, -⟩ := store_does b2 k2
  obtain ⟨p, _, _, w3, -⟩ := load_does c4 k3
  obtain ⟨p', _, _, w4, -⟩ := load_does d4 k4
  by_cases q1 : j < p'
  · exact .inl (one_way h.decls h.histories (fun u m q => h.own u t m q (len he)) he' hi.before a2 a4 hi.kept d2 d3 d4 d5 d6 w4 a1 w1 q1)
  by_cases q2 : j' < p
  · exact .inr (one_way h.decls h.histories (fun u m q => h.own u t' m q (len he')) he hi'.before b2 b4 hi'.kept c2 c3 c4 c5 c6 w3 b1 w2 q2)
  exfalso
  obtain ⟨S, hS⟩ := h.order
  have m1 := (hS.mem t n).mpr ⟨_, a1, a3⟩
  have m2 := (hS.mem t l).mpr ⟨_, c3, c6⟩
  have m3 := (hS.mem t' n').mpr ⟨_, b1, b3⟩
  have m4 := (hS.mem t' l').mpr ⟨_, d3, d6⟩
  obtain ⟨i1, j1, l1, f1, g1⟩ := hS.program t n l m1 m2 c1
  obtain ⟨i2, j2, l2, f2, g2⟩ := hS.num _ t l t' n' r s' m2 m3 c3 b1 (by rw [w3, w2]; exact Nat.le_of_not_lt q2)
  obtain ⟨i3, j3, l3, f3, g3⟩ := hS.program t' n' l' m3 m4 d1
  obtain ⟨i4, j4, l4, f4, g4⟩ := hS.num _ t' l' t n r' s m4 m1 d3 a1 (by rw [w4, w1]; exact Nat.le_of_not_lt q1)
  have y1 := SeqCst.index hS.nodup g1 f2
  have y2 := SeqCst.index hS.nodup g2 f3
  have y3 := SeqCst.index hS.nodup g3 f4
  have y4 := SeqCst.index hS.nodup g4 f1
  omega

/-- **C163, no data race.** -/
theorem C163_no_race (h : Run c0 v0 threads flag) {d : δ} (hd : Guarded Sc Sc threads flag d) : ¬ Race threads d := by
  rintro ⟨t, x, m, t', x', m', he, he', -, hne, h1, h2⟩
  have left : ∀ {t x t' x' m}, eventAt threads t x = some (.plain d m) → Left threads flag t x t' x' → HB threads t x t' x' := by
    rintro t x t' x' m he ⟨z, r, hz, hr, -, hb⟩
    rcases Nat.lt_or_eq_of_le hz with hz | rfl
    · exact .trans _ _ _ _ _ _ (.same _ _ _ _ _ he hr hz) hb
    · exact hb
  by_cases ht : t = t'
  · subst ht
    rcases Nat.lt_trichotomy x x' with hl | hl | hl
    · exact h1 (.same _ _ _ _ _ he he' hl)
    · exact hne ⟨rfl, hl⟩
    · exact h2 (.same _ _ _ _ _ he' he hl)
  · obtain ⟨n, hi⟩ := hd t x m he
    obtain ⟨n', hi'⟩ := hd t' x' m' he'
    rcases C163_exclusive h hi hi' ht he he' with hb | hb
    · exact h1 (left he hb)
    · exact h2 (left he' hb)

end

/-! ## Examples -/

/-- The flags of two threads. -/
def two : Nat → Bool
  | 0 => false
  | _ + 1 => true

/-- The first thread uses the data and leaves, then the second one does. -/
def turns : List (List (Event desk Nat)) :=
  [[.num false ⟨(.store 1#8, none), none, .write 0⟩, .num true ⟨(.load, none), some 0#8, .read 0⟩, .plain 3 true,
    .num false ⟨(.store 0#8, some .release), none, .write 1⟩],
   [.num true ⟨(.store 1#8, none), none, .write 0⟩, .num false ⟨(.load, none), some 0#8, .read 2⟩, .plain 3 true]]

theorem turns_histories : Histories (fun _ => 0#8) (fun _ => 0#8) turns := by
  refine ⟨fun | () => ⟨0, fun _ => 0#8, .of_rules rfl ?_ ?_⟩, fun
    | false => ⟨2, fun n => [0#32, 1#32, 0#32].getD n 0#32, .of_rules rfl ?_ ?_⟩
    | true => ⟨1, fun n => [0#32, 1#32].getD n 0#32, .of_rules rfl ?_ ?_⟩⟩
  · intro rs hrs r hr
    fin_cases hrs <;> simp [Event.bits?] at hr
  · decide
  · intro rs hrs r hr
    fin_cases hrs <;> fin_cases hr
    · exact ⟨_, _, _, _, rfl, rfl, .inr ⟨by decide, 0, rfl, rfl⟩⟩
    · exact ⟨_, _, _, _, rfl, rfl, .inr ⟨by decide, 1, rfl, rfl⟩⟩
    · exact ⟨_, _, _, _, rfl, rfl, .inl ⟨rfl, 2, rfl⟩⟩
  · decide
  · intro rs hrs r hr
    fin_cases hrs <;> fin_cases hr
    · exact ⟨_, _, _, _, rfl, rfl, .inl ⟨rfl, 0, rfl⟩⟩
    · exact ⟨_, _, _, _, rfl, rfl, .inr ⟨by decide, 0, rfl, rfl⟩⟩
  · decide

theorem turns_single : SingleOrder turns SeqCst.flagsOrder where
  nodup := by decide
  mem := fun t n => by
    constructor
    · intro h
      simp only [SeqCst.flagsOrder, List.mem_cons, Prod.mk.injEq, List.not_mem_nil, or_false] at h
      rcases h with ⟨rfl, rfl⟩ | ⟨rfl, rfl⟩ | ⟨rfl, rfl⟩ | ⟨rfl, rfl⟩ <;> exact ⟨_, rfl, rfl⟩
    · rintro ⟨e, h, he⟩
      match t, n with
      | 0, 0 | 0, 1 | 1, 0 | 1, 1 => decide
      | 0, 2 | 1, 2 => cases h; exact absurd he id
      | 0, 3 => cases h; cases he
      | 0, _ + 4 | 1, _ + 3 => cases h
      | _ + 2, _ => simp [eventAt, turns] at h
  program := fun t n n' h h' hn => by
    simp only [SeqCst.flagsOrder, List.mem_cons, Prod.mk.injEq, List.not_mem_nil, or_false] at h h'
    have : (t = 0 ∧ n = 0 ∧ n' = 1) ∨ (t = 1 ∧ n = 0 ∧ n' = 1) := by omega
    rcases this with ⟨rfl, rfl, rfl⟩ | ⟨rfl, rfl, rfl⟩
    · exact ⟨0, 1, by decide, rfl, rfl⟩
    · exact ⟨2, 3, by decide, rfl, rfl⟩
  bits := fun k t n t' n' r r' h _ h1 _ _ => by
    simp only [SeqCst.flagsOrder, List.mem_cons, Prod.mk.injEq, List.not_mem_nil, or_false] at h
    rcases h with ⟨rfl, rfl⟩ | ⟨rfl, rfl⟩ | ⟨rfl, rfl⟩ | ⟨rfl, rfl⟩ <;> cases h1
  num := fun a t n t' n' r r' h h' h1 h2 hc => by
    simp only [SeqCst.flagsOrder, List.mem_cons, Prod.mk.injEq, List.not_mem_nil, or_false] at h h'
    rcases h with ⟨rfl, rfl⟩ | ⟨rfl, rfl⟩ | ⟨rfl, rfl⟩ | ⟨rfl, rfl⟩ <;>
      rcases h' with ⟨rfl, rfl⟩ | ⟨rfl, rfl⟩ | ⟨rfl, rfl⟩ | ⟨rfl, rfl⟩ <;> cases h1 <;> cases h2 <;>
      first
        | exact ⟨0, 3, by decide, rfl, rfl⟩
        | exact ⟨1, 2, by decide, rfl, rfl⟩
        | exact absurd hc (by simp [Cob])

theorem turns_run : Run (fun _ => 0#8) (fun _ => 0#8) turns two where
  decls := desk_ok
  histories := turns_histories
  order := ⟨_, turns_single⟩
  own := fun t u n r hu h => by
    have hu2 : u < 2 := hu
    obtain rfl | rfl : u = 0 ∨ u = 1 := by omega
    · match t, n with
      | 0, 0 => cases h; exact .inr ⟨rfl, ⟨_, .inl rfl⟩, .inr (.inr rfl)⟩
      | 0, 3 => cases h; exact .inr ⟨rfl, ⟨_, .inl rfl⟩, .inl rfl⟩
      | 1, 1 => cases h; exact .inl rfl
      | 0, 1 | 0, 2 | 1, 0 | 1, 2 => cases h
      | 0, _ + 4 | 1, _ + 3 => cases h
      | _ + 2, _ => simp [eventAt, turns] at h
    · match t, n with
      | 1, 0 => cases h; exact .inr ⟨rfl, ⟨_, .inl rfl⟩, .inr (.inr rfl)⟩
      | 0, 1 => cases h; exact .inl rfl
      | 0, 0 | 0, 2 | 0, 3 | 1, 1 | 1, 2 => cases h
      | 0, _ + 4 | 1, _ + 3 => cases h
      | _ + 2, _ => simp [eventAt, turns] at h

theorem turns_first : Inside Sc Sc turns two 0 2 0 where
  before := by decide
  raised := ⟨_, 1#8, rfl, .inl rfl, show 1#8 ≠ 0#8 by decide, rfl⟩
  kept := fun y r h1 h2 h => by
    obtain rfl : y = 1 := by omega
    cases h
  asked := fun u hu hne => by
    obtain rfl : u = 1 := by have : u < 2 := hu; omega
    exact ⟨1, _, by decide, by decide, rfl, rfl, rfl, rfl⟩

theorem turns_second : Inside Sc Sc turns two 1 2 0 where
  before := by decide
  raised := ⟨_, 1#8, rfl, .inl rfl, show 1#8 ≠ 0#8 by decide, rfl⟩
  kept := fun y r h1 h2 h => by
    obtain rfl : y = 1 := by omega
    cases h
  asked := fun u hu hne => by
    obtain rfl : u = 0 := by have : u < 2 := hu; omega
    exact ⟨1, _, by decide, by decide, rfl, rfl, rfl, rfl⟩

example : Left turns two 0 2 1 2 ∨ Left turns two 1 2 0 2 := C163_exclusive turns_run turns_first turns_second (by decide) rfl rfl

example : ¬ Race turns 3 := C163_no_race turns_run fun t x m h => by
  match t, x with
  | 0, 2 => exact ⟨0, turns_first⟩
  | 1, 2 => exact ⟨0, turns_second⟩
  | 0, 0 | 0, 1 | 0, 3 | 1, 0 | 1, 1 => cases h
  | 0, _ + 4 | 1, _ + 3 => cases h
  | _ + 2, _ => simp [eventAt, turns] at h

/-- Both threads find the flag of the other 0. -/
def both : List (List (Event desk Nat)) :=
  [[.num false ⟨(.store 1#8, some .release), none, .write 0⟩, .num true ⟨(.load, some .acquire), some 0#8, .read 0⟩, .plain 3 true],
   [.num true ⟨(.store 1#8, some .release), none, .write 0⟩, .num false ⟨(.load, some .acquire), some 0#8, .read 0⟩, .plain 3 true]]

theorem both_histories : Histories (fun _ => 0#8) (fun _ => 0#8) both := by
  refine ⟨fun | () => ⟨0, fun _ => 0#8, .of_rules rfl ?_ ?_⟩, fun
    | false => ⟨1, fun n => [0#32, 1#32].getD n 0#32, .of_rules rfl ?_ ?_⟩
    | true => ⟨1, fun n => [0#32, 1#32].getD n 0#32, .of_rules rfl ?_ ?_⟩⟩
  · intro rs hrs r hr
    fin_cases hrs <;> simp [Event.bits?] at hr
  · decide
  · intro rs hrs r hr
    fin_cases hrs <;> fin_cases hr
    · exact ⟨_, _, _, _, rfl, rfl, .inr ⟨by decide, 0, rfl, rfl⟩⟩
    · exact ⟨_, _, _, _, rfl, rfl, .inl ⟨rfl, 0, rfl⟩⟩
  · decide
  · intro rs hrs r hr
    fin_cases hrs <;> fin_cases hr
    · exact ⟨_, _, _, _, rfl, rfl, .inl ⟨rfl, 0, rfl⟩⟩
    · exact ⟨_, _, _, _, rfl, rfl, .inr ⟨by decide, 0, rfl, rfl⟩⟩
  · decide

theorem both_events {t n : Nat} {e : Event desk Nat} (h : eventAt both t n = some e) : t < 2 ∧ n < 3 := by
  match t, n with
  | 0, 0 | 0, 1 | 0, 2 | 1, 0 | 1, 1 | 1, 2 => decide
  | 0, _ + 3 | 1, _ + 3 => cases h
  | _ + 2, _ => simp [eventAt, both] at h

theorem both_hb {t n t' n' : Nat} (h : HB both t n t' n') : t = t' ∧ n < n' := by
  induction h with
  | same _ _ _ _ _ _ _ hn => exact ⟨rfl, hn⟩
  | bits k t n t' n' q q' h h' hs =>
    obtain ⟨ht, hn⟩ := both_events h
    match t, n with
    | 0, 0 | 0, 1 | 0, 2 | 1, 0 | 1, 1 | 1, 2 => cases h
    | 0, _ + 3 | 1, _ + 3 => omega
    | _ + 2, _ => omega
  | num a t n t' n' q q' h h' hs =>
    obtain ⟨r, r', _, _, _, _, _, _, _, _, j, _, h2, _, _, _, _, _, _, _, h3, _⟩ := hs
    rw [part_callAt h' (num?_eq a _), Option.some.injEq] at h2
    subst h2
    obtain ⟨ht, hn⟩ := both_events h'
    match t', n' with
    | 0, 0 | 0, 1 | 1, 0 | 1, 1 => cases h'; exact absurd h3 (Nat.not_lt_zero j)
    | 0, 2 | 1, 2 => cases h'
    | 0, _ + 3 | 1, _ + 3 => omega
    | _ + 2, _ => omega
  | trans _ _ _ _ _ _ _ _ ih ih' => exact ⟨ih.1.trans ih'.1, ih.2.trans ih'.2⟩

/-- **C163, the orders matter.** If flags are raised with `release` and loaded with `acquire`, there is an execution with a data race. -/
theorem C163_acquire_release_race : ∃ threads : List (List (Event desk Nat)), Run (fun _ => 0#8) (fun _ => 0#8) threads two ∧ Consistent threads ∧
    Guarded (· = .release) (· = .acquire) threads two 3 ∧ Race threads 3 := by
  refine ⟨both, ⟨desk_ok, both_histories, ⟨[], .nil, fun t n => ⟨fun h => (by cases h), ?_⟩, fun _ _ _ h => (by cases h),
    fun _ _ _ _ _ _ _ h => (by cases h), fun _ _ _ _ _ _ _ h => (by cases h)⟩, ?_⟩, ?_, ?_, 0, 2, true, 1, 2, true, rfl, rfl, .inl rfl, by decide,
    fun h => absurd (both_hb h).1 (by decide), fun h => absurd (both_hb h).1 (by decide)⟩
  · rintro ⟨e, h, he⟩
    obtain ⟨ht, hn⟩ := both_events h
    match t, n with
    | 0, 0 | 0, 1 | 0, 2 | 1, 0 | 1, 1 | 1, 2 => cases h; cases he
    | 0, _ + 3 | 1, _ + 3 => omega
    | _ + 2, _ => omega
  · intro t u n r hu h
    obtain ⟨ht, hn⟩ := both_events h
    have hu2 : u < 2 := hu
    obtain rfl | rfl : u = 0 ∨ u = 1 := by omega
    · match t, n with
      | 0, 0 => cases h; exact .inr ⟨rfl, ⟨_, .inl rfl⟩, .inl rfl⟩
      | 1, 1 => cases h; exact .inl rfl
      | 0, 1 | 0, 2 | 1, 0 | 1, 2 => cases h
      | 0, _ + 3 | 1, _ + 3 => omega
      | _ + 2, _ => omega
    · match t, n with
      | 1, 0 => cases h; exact .inr ⟨rfl, ⟨_, .inl rfl⟩, .inl rfl⟩
      | 0, 1 => cases h; exact .inl rfl
      | 0, 0 | 0, 2 | 1, 1 | 1, 2 => cases h
      | 0, _ + 3 | 1, _ + 3 => omega
      | _ + 2, _ => omega
  · intro a t n t' n' r r' h h' hb
    obtain ⟨rfl, hlt⟩ := both_hb hb
    obtain ⟨ht, hn⟩ := both_events h
    obtain ⟨-, hn'⟩ := both_events h'
    match t, n, n' with
    | 0, 0, 1 | 0, 0, 2 | 0, 1, 2 | 1, 0, 1 | 1, 0, 2 | 1, 1, 2 => cases h; cases h'
    | 0, 2, _ | 1, 2, _ => omega
    | 0, _ + 3, _ | 1, _ + 3, _ => omega
    | 0, _, 0 | 1, _, 0 => omega
    | 0, 1, 1 | 1, 1, 1 => omega
    | 0, 0, _ + 3 | 0, 1, _ + 3 | 1, 0, _ + 3 | 1, 1, _ + 3 => omega
    | _ + 2, _, _ => omega
  · intro t x m h
    match t, x with
    | 0, 2 =>
      refine ⟨0, by decide, ⟨_, 1#8, rfl, .inl rfl, show 1#8 ≠ 0#8 by decide, rfl⟩, fun y r h1 h2 h => ?_, fun u hu hne => ?_⟩
      · obtain rfl : y = 1 := by omega
        cases h
      · obtain rfl : u = 1 := by have : u < 2 := hu; omega
        exact ⟨1, _, by decide, by decide, rfl, rfl, rfl, rfl⟩
    | 1, 2 =>
      refine ⟨0, by decide, ⟨_, 1#8, rfl, .inl rfl, show 1#8 ≠ 0#8 by decide, rfl⟩, fun y r h1 h2 h => ?_, fun u hu hne => ?_⟩
      · obtain rfl : y = 1 := by omega
        cases h
      · obtain rfl : u = 0 := by have : u < 2 := hu; omega
        exact ⟨1, _, by decide, by decide, rfl, rfl, rfl, rfl⟩
    | 0, 0 | 0, 1 | 1, 0 | 1, 1 => cases h
    | 0, _ + 3 | 1, _ + 3 => cases h
    | _ + 2, _ => simp [eventAt, both] at h

end Verif.FlagLock
