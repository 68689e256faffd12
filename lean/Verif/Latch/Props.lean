import Verif.Latch.Model
import Verif.Sync.PropsTicket
import Verif.Sync.Check
import Mathlib.Data.Fintype.EquivFin
import Mathlib.Data.Fintype.Card

/-!
# Properties of a latch (C161)
-/

namespace Verif.Latch

open Verif.Sync Verif.Conc

variable {κ γ δ : Type} {D : Decls κ γ} [DecidableEq κ] [DecidableEq γ]

/-! ## Lemmas -/

theorem arrive_shape {C : Atomic.Cfg} (hwe : C.w ≤ C.e) (dflt : MOrd) {c : ACall C} (h : IsArrive c) :
    ∃ f g, aimpl C dflt c = .access .rmw (aorder dflt c.1 c.2) f g ∧ ∀ x, (f x).setWidth C.w = x.setWidth C.w - 1#C.w := by
  obtain ⟨op, mo⟩ := c
  rcases h with h | h | h | h <;> simp only at h <;> subst h
  · cases mo <;> refine ⟨_, _, rfl, fun x => ?_⟩ <;> rw [Atomic.setWidth_sub' hwe, Atomic.narrow_widen hwe]
  · refine ⟨_, _, rfl, fun x => ?_⟩
    rw [Atomic.setWidth_sub' hwe, Atomic.narrow_widen hwe]
  · refine ⟨_, _, rfl, fun x => ?_⟩
    rw [Atomic.setWidth_sub' hwe, Atomic.setWidth_one' hwe]
  · refine ⟨_, _, rfl, fun x => ?_⟩
    rw [Atomic.setWidth_sub' hwe, Atomic.setWidth_one' hwe]

section

variable {ord : MOrd → Prop} {c0 : (k : κ) → BitVec (D.w k)} {v0 : (a : γ) → BitVec (D.C a).w} {threads : List (List (Event D δ))}
  {a : γ} {N : Nat}

/-! ## Properties -/

/-- **C161, a latch.** Who finds 0 comes after all: each of the `N` threads has arrived, and all it had done until then happens before all that the
thread that waited does from then on. -/
theorem C161_latch (h : Run Releasing c0 v0 threads a N) {t' l : Nat} (hp : Passes threads a t' l) :
    ∀ t, t < N → ∃ n, Arrives threads a t n ∧ HB threads t n t' l ∧
      ∀ x y e e', x ≤ n → l ≤ y → eventAt threads t x = some e → eventAt threads t' y = some e' → HB threads t x t' y := by
  obtain ⟨m, val, hh⟩ := h.histories.num a
  have hwe := h.decls.elem a
  have call : ∀ {t n r}, eventAt threads t n = some (.num a r) →
      callAt (part (Event.num? a) threads) t (before (Event.num? a) threads t n) = some r := fun h => part_callAt h (num?_eq a _)
  have does : ∀ {t n r}, callAt (part (Event.num? a) threads) t n = some r → Does (aimpl (D.C a) D.dflt) val r := by
    intro t n r h
    obtain ⟨rs, h1, h2⟩ := callAt_mem h
    exact hh.does rs h1 r h2
  -- each write is an arrival
  have writer : ∀ j, j < m → ∃ t n r, eventAt threads t n = some (.num a r) ∧ IsArrive r.call ∧ t < N ∧ r.acc = .write j ∧
      Releasing (aorder D.dflt r.call.1 r.call.2) ∧ (val (j + 1)).setWidth (D.C a).w = (val j).setWidth (D.C a).w - 1#_ := by
    intro j hj
    obtain ⟨t, k, q, hq, hqa⟩ := hh.writer j hj
    obtain ⟨n, e, e1, e2, -⟩ := callAt_part hq
    rw [num?_some e2] at e1
    rcases h.calls t n q e1 with hl | ⟨ha, ht, ho⟩
    · obtain ⟨p, _, _, hp, _⟩ := load_does hl (does hq)
      rw [hqa] at hp; cases hp
    · refine ⟨t, n, q, e1, ha, ht, hqa, ho, ?_⟩
      obtain ⟨f, g, s1, s2⟩ := arrive_shape hwe D.dflt ha
      obtain ⟨k, o', f', g', e', h5, h6⟩ := does hq
      rw [s1] at e'
      simp only [LProg.access.injEq] at e'
      obtain ⟨rfl, rfl, rfl, rfl⟩ := e'
      rcases h6 with ⟨h6, _⟩ | ⟨_, j', hj', hv⟩
      · cases h6
      · rw [hqa] at hj'; cases hj'
        rw [hv, s2]
  choose! th ev rc hw using writer
  have inj : ∀ j j', j < m → j' < m → th j = th j' → j = j' := by
    intro j j' hj hj' he
    obtain ⟨e1, a1, -, w1, -⟩ := hw j hj
    obtain ⟨e2, a2, -, w2, -⟩ := hw j' hj'
    rw [← he] at e2
    have := h.once (th j) (ev j) (ev j') ⟨_, e1, a1⟩ ⟨_, e2, a2⟩
    rw [← this, e1] at e2
    simp only [Option.some.injEq, Event.num.injEq, heq_eq_eq, true_and] at e2
    rw [e2, w2] at w1
    cases w1; rfl
  have hm : m ≤ N := by
    have := Fintype.card_le_of_injective (fun j : Fin m => (⟨th j, (hw j j.2).2.2.1⟩ : Fin N)) fun j j' he =>
      Fin.ext (inj j j' j.2 j'.2 (by simpa using he))
    simpa using this
  have values : ∀ p, p ≤ m → (val p).setWidth (D.C a).w = BitVec.ofNat _ (N - p) := by
    intro p
    induction p with
    | zero => intro _; rw [hh.initial, Atomic.init, Atomic.narrow_widen hwe, h.start]; rfl
    | succ p ih =>
      intro hp
      rw [(hw p (by omega)).2.2.2.2.2, ih (by omega)]
      have : N - p = (N - (p + 1)) + 1 := by omega
      rw [this, BitVec.ofNat_add, BitVec.add_sub_cancel]
  obtain ⟨mo, acc, el, hacq⟩ := hp
  obtain ⟨p, f, c, hpacc, hres, eload⟩ := load_does rfl (does (call el))
  simp only at hpacc hres
  subst hpacc
  have hpm : p ≤ m := hh.pos_le (call el)
  have hpN : p = N := by
    rw [Option.some.injEq, Atomic.narrow, values p hpm] at hres
    have := congrArg BitVec.toNat hres
    have hf := h.fits
    rw [BitVec.toNat_ofNat, BitVec.toNat_ofNat, Nat.mod_eq_of_lt (Nat.lt_of_le_of_lt (Nat.sub_le _ _) hf)] at this
    simp at this
    omega
  have hmN : m = N := by omega
  subst hpN
  have sync : ∀ j, j < m → HB threads (th j) (ev j) t' l := by
    intro j hj
    obtain ⟨e1, a1, -, w1, o1, -⟩ := hw j hj
    obtain ⟨f1, g1, s1, -⟩ := arrive_shape hwe D.dflt a1
    refine .num a _ _ _ _ _ _ e1 el ⟨_, _, _, _, _, _, _, _, _, _, j, call e1, call el, s1, eload, by decide, o1.releases, by decide, ?_, w1,
      by simp [Acc.pos]; omega, ?_⟩
    · rcases hacq with rfl | ⟨o, rfl, ha⟩
      · rfl
      · exact ha.acquires
    · intro i _ _ u k q hq hqa
      obtain ⟨b, e, e2, e3, -⟩ := callAt_part hq
      rw [num?_some e3] at e2
      rcases h.calls u b q e2 with hl | ⟨ha, -, -⟩
      · obtain ⟨p', _, _, hp', _⟩ := load_does hl (does hq)
        rw [hqa] at hp'; cases hp'
      · obtain ⟨f2, g2, s2, -⟩ := arrive_shape hwe D.dflt ha
        exact ⟨_, _, _, s2⟩
  intro t ht
  subst hmN
  have surj := Finite.injective_iff_surjective.mp
    (show Function.Injective (fun j : Fin m => (⟨th j, (hw j j.2).2.2.1⟩ : Fin m)) from fun j j' he =>
      Fin.ext (inj j j' j.2 j'.2 (by simpa using he)))
  obtain ⟨j, hj⟩ := surj ⟨t, ht⟩
  simp only [Fin.mk.injEq] at hj
  subst hj
  obtain ⟨e1, a1, -⟩ := hw j j.2
  have hs := sync j j.2
  refine ⟨ev j, ⟨_, e1, a1⟩, hs, fun x y e e' hx hy he he' => ?_⟩
  have h1 : HB threads (th j) x t' l := by
    rcases Nat.lt_or_eq_of_le hx with hx | rfl
    · exact .trans _ _ _ _ _ _ (.same _ _ _ _ _ he e1 hx) hs
    · exact hs
  rcases Nat.lt_or_eq_of_le hy with hy | rfl
  · exact .trans _ _ _ _ _ _ h1 (.same _ _ _ _ _ el he' hy)
  · exact h1

/-- **C161, it opens.** Whatever the orders, a load that sees the arrivals of all `N` threads returns 0. -/
theorem C161_opens (h : Run ord c0 v0 threads a N) {t' l p : Nat} {r : Rec (ACall (D.C a)) (Option (BitVec (D.C a).w))}
    (hl : eventAt threads t' l = some (.num a r)) (h1 : r.call.1 = .load) (hr : r.acc = .read p)
    (hs : ∀ t, t < N → ∃ (n : Nat) (q : Rec (ACall (D.C a)) (Option (BitVec (D.C a).w))) (j : Nat),
      eventAt threads t n = some (.num a q) ∧ IsArrive q.call ∧ q.acc = .write j ∧ j < p) : r.res = some 0#_ := by
  obtain ⟨m, val, hh⟩ := h.histories.num a
  have hwe := h.decls.elem a
  have call : ∀ {t n r}, eventAt threads t n = some (.num a r) →
      callAt (part (Event.num? a) threads) t (before (Event.num? a) threads t n) = some r := fun h => part_callAt h (num?_eq a _)
  have does : ∀ {t n r}, callAt (part (Event.num? a) threads) t n = some r → Does (aimpl (D.C a) D.dflt) val r := by
    intro t n r h
    obtain ⟨rs, h1, h2⟩ := callAt_mem h
    exact hh.does rs h1 r h2
  -- each write is an arrival
  have writer : ∀ j, j < m → ∃ t n r, eventAt threads t n = some (.num a r) ∧ IsArrive r.call ∧ t < N ∧ r.acc = .write j ∧
      (val (j + 1)).setWidth (D.C a).w = (val j).setWidth (D.C a).w - 1#_ := by
    intro j hj
    obtain ⟨t, k, q, hq, hqa⟩ := hh.writer j hj
    obtain ⟨n, e, e1, e2, -⟩ := callAt_part hq
    rw [num?_some e2] at e1
    rcases h.calls t n q e1 with hl | ⟨ha, ht, -⟩
    · obtain ⟨p, _, _, hp, _⟩ := load_does hl (does hq)
      rw [hqa] at hp; cases hp
    · refine ⟨t, n, q, e1, ha, ht, hqa, ?_⟩
      obtain ⟨f, g, s1, s2⟩ := arrive_shape hwe D.dflt ha
      obtain ⟨k, o', f', g', e', h5, h6⟩ := does hq
      rw [s1] at e'
      simp only [LProg.access.injEq] at e'
      obtain ⟨rfl, rfl, rfl, rfl⟩ := e'
      rcases h6 with ⟨h6, _⟩ | ⟨_, j', hj', hv⟩
      · cases h6
      · rw [hqa] at hj'; cases hj'
        rw [hv, s2]
  choose! th ev rc hw using writer
  have inj : ∀ j j', j < m → j' < m → th j = th j' → j = j' := by
    intro j j' hj hj' he
    obtain ⟨e1, a1, -, w1, -⟩ := hw j hj
    obtain ⟨e2, a2, -, w2, -⟩ := hw j' hj'
    rw [← he] at e2
    have := h.once (th j) (ev j) (ev j') ⟨_, e1, a1⟩ ⟨_, e2, a2⟩
    rw [← this, e1] at e2
    simp only [Option.some.injEq, Event.num.injEq, heq_eq_eq, true_and] at e2
    rw [e2, w2] at w1
    cases w1; rfl
  have hm : m ≤ N := by
    have := Fintype.card_le_of_injective (fun j : Fin m => (⟨th j, (hw j j.2).2.2.1⟩ : Fin N)) fun j j' he =>
      Fin.ext (inj j j' j.2 j'.2 (by simpa using he))
    simpa using this
  have values : ∀ p, p ≤ m → (val p).setWidth (D.C a).w = BitVec.ofNat _ (N - p) := by
    intro p
    induction p with
    | zero => intro _; rw [hh.initial, Atomic.init, Atomic.narrow_widen hwe, h.start]; rfl
    | succ p ih =>
      intro hp
      rw [(hw p (by omega)).2.2.2.2, ih (by omega)]
      have : N - p = (N - (p + 1)) + 1 := by omega
      rw [this, BitVec.ofNat_add, BitVec.add_sub_cancel]
  obtain ⟨_, _, _, hpacc, hres, -⟩ := load_does h1 (does (call hl))
  rw [hr] at hpacc
  cases hpacc
  have hpm : p ≤ m := by
    have := hh.pos_le (call hl)
    rw [hr] at this
    exact this
  choose! n q j hq using hs
  have hN : N ≤ p := by
    have := Fintype.card_le_of_injective (fun t : Fin N => (⟨j t, (hq t t.2).2.2.2⟩ : Fin p)) fun t u he => by
      have he : j t = j u := by simpa using he
      have := hh.unique (call (hq t t.2).1) (call (hq u u.2).1) (hq t t.2).2.2.1 (by rw [(hq u u.2).2.2.1, he])
      exact Fin.ext this.1
    simpa using this
  rw [hres, Atomic.narrow, values p hpm, show N - p = 0 by omega]

/-- **C161, no data race.** What one of the threads changes before it arrives can be read by all who have found that all have arrived. -/
theorem C161_no_race (h : Run Releasing c0 v0 threads a N) {d : δ} (hd : Part threads a N d) : ¬ Race threads d := by
  obtain ⟨owner, ho, hu⟩ := hd
  have key : ∀ {t x t' x' m'}, t ≠ t' → eventAt threads t x = some (.plain d true) → eventAt threads t' x' = some (.plain d m') →
      HB threads t x t' x' := by
    intro t x t' x' m' hne he he'
    rcases hu t x true he with ⟨rfl, hx⟩ | ⟨hm, -⟩
    · rcases hu t' x' m' he' with ⟨rfl, -⟩ | ⟨-, l, hl, hp⟩
      · exact absurd rfl hne
      · obtain ⟨n, hn, -, hall⟩ := C161_latch h hp t ho
        exact hall x x' _ _ (Nat.le_of_lt (hx n hn)) (Nat.le_of_lt hl) he he'
    · cases hm
  rintro ⟨t, x, m, t', x', m', he, he', hm, hne, h1, h2⟩
  by_cases ht : t = t'
  · subst ht
    rcases Nat.lt_trichotomy x x' with hl | hl | hl
    · exact h1 (.same _ _ _ _ _ he he' hl)
    · exact hne ⟨rfl, hl⟩
    · exact h2 (.same _ _ _ _ _ he' he hl)
  · rcases hm with rfl | rfl
    · exact h1 (key ht he he')
    · exact h2 (key (Ne.symm ht) he' he)

end

/-! ## Examples -/

/-- Two threads arrive, a third one waits and reads what they have written. -/
def meet (mo : MOrd) : List (List (Event desk Nat)) :=
  [[.plain 0 true, .num false ⟨(.fetchSub 1#8, some mo), some 2#8, .write 0⟩],
   [.plain 1 true, .num false ⟨(.fetchSub 1#8, some mo), some 1#8, .write 1⟩],
   [.num false ⟨(.load, some .acquire), some 1#8, .read 1⟩, .num false ⟨(.load, some .acquire), some 0#8, .read 2⟩, .plain 0 false, .plain 1 false]]

theorem meet_histories {mo : MOrd} (h : mo = .release ∨ mo = .relaxed) : Histories (fun _ => 0#8) (fun _ => 2#8) (meet mo) := by
  refine ⟨fun | () => ⟨0, fun _ => 0#8, .of_rules rfl ?_ ?_⟩, fun
    | false => ⟨2, fun n => [2#32, 1#32, 0#32].getD n 0#32, .of_rules rfl ?_ ?_⟩
    | true => ⟨0, fun _ => 2#32, .of_rules rfl ?_ ?_⟩⟩
  · intro rs hrs r hr
    fin_cases hrs <;> simp [Event.bits?] at hr
  · rcases h with rfl | rfl <;> decide
  · intro rs hrs r hr
    rcases h with rfl | rfl <;> fin_cases hrs <;> fin_cases hr
    · exact ⟨_, _, _, _, rfl, rfl, .inr ⟨by decide, 0, rfl, rfl⟩⟩
    · exact ⟨_, _, _, _, rfl, rfl, .inr ⟨by decide, 1, rfl, rfl⟩⟩
    · exact ⟨_, _, _, _, rfl, rfl, .inl ⟨rfl, 1, rfl⟩⟩
    · exact ⟨_, _, _, _, rfl, rfl, .inl ⟨rfl, 2, rfl⟩⟩
    · exact ⟨_, _, _, _, rfl, rfl, .inr ⟨by decide, 0, rfl, rfl⟩⟩
    · exact ⟨_, _, _, _, rfl, rfl, .inr ⟨by decide, 1, rfl, rfl⟩⟩
    · exact ⟨_, _, _, _, rfl, rfl, .inl ⟨rfl, 1, rfl⟩⟩
    · exact ⟨_, _, _, _, rfl, rfl, .inl ⟨rfl, 2, rfl⟩⟩
  · rcases h with rfl | rfl <;> decide
  · intro rs hrs r hr
    fin_cases hrs <;> simp [Event.num?] at hr
  · rcases h with rfl | rfl <;> decide

theorem meet_arrives {mo : MOrd} {t n : Nat} (h : Arrives (meet mo) false t n) : n = 1 ∧ t < 2 := by
  obtain ⟨r, h1, h2⟩ := h
  match t, n with
  | 0, 1 | 1, 1 => exact ⟨rfl, by decide⟩
  | 0, 0 | 1, 0 | 2, 2 | 2, 3 => cases h1
  | 2, 0 | 2, 1 => cases h1; rcases h2 with h | h | h | h <;> cases h
  | 0, _ + 2 | 1, _ + 2 | 2, _ + 4 => cases h1
  | _ + 3, _ => simp [eventAt, meet] at h1

theorem meet_run {mo : MOrd} (h : mo = .release ∨ mo = .relaxed) {ord : MOrd → Prop} (ho : ord mo) :
    Run ord (fun _ => 0#8) (fun _ => 2#8) (meet mo) false 2 where
  decls := desk_ok
  histories := meet_histories h
  fits := show 2 < 2 ^ 8 by decide
  start := rfl
  calls := fun t n r h1 => by
    match t, n with
    | 0, 1 | 1, 1 => cases h1; exact .inr ⟨.inl rfl, by decide, ho⟩
    | 2, 0 | 2, 1 => cases h1; exact .inl rfl
    | 0, 0 | 1, 0 | 2, 2 | 2, 3 => cases h1
    | 0, _ + 2 | 1, _ + 2 | 2, _ + 4 => cases h1
    | _ + 3, _ => simp [eventAt, meet] at h1
  once := fun t n n' h1 h2 => (meet_arrives h1).1.trans (meet_arrives h2).1.symm

theorem meet_passes (mo : MOrd) : Passes (meet mo) false 2 1 := ⟨_, _, rfl, .inr ⟨_, rfl, .inl rfl⟩⟩

theorem meet_part (mo : MOrd) : Part (meet mo) false 2 0 := by
  refine ⟨0, by decide, fun t x m h1 => ?_⟩
  match t, x with
  | 0, 0 => exact .inl ⟨rfl, fun n hn => by have := (meet_arrives hn).1; omega⟩
  | 2, 2 => cases h1; exact .inr ⟨rfl, 1, by decide, meet_passes mo⟩
  | 0, 1 | 1, 0 | 1, 1 | 2, 0 | 2, 1 | 2, 3 => cases h1
  | 0, _ + 2 | 1, _ + 2 | 2, _ + 4 => cases h1
  | _ + 3, _ => simp [eventAt, meet] at h1

example : ∃ n, Arrives (meet .release) false 1 n ∧ HB (meet .release) 1 n 2 1 ∧ ∀ x y e e', x ≤ n → 1 ≤ y →
    eventAt (meet .release) 1 x = some e → eventAt (meet .release) 2 y = some e' → HB (meet .release) 1 x 2 y :=
  C161_latch (meet_run (.inl rfl) (.inl rfl)) (meet_passes _) 1 (by decide)

example : ¬ Race (meet .release) 0 := C161_no_race (meet_run (.inl rfl) (.inl rfl)) (meet_part _)

example : (some 0#8 : Option (BitVec 8)) = some 0#8 :=
  C161_opens (t' := 2) (l := 1) (meet_run (.inr rfl) (ord := fun o => o = .relaxed) rfl) rfl rfl rfl fun
    | 0, _ => ⟨1, _, 0, rfl, .inl rfl, rfl, by decide⟩
    | 1, _ => ⟨1, _, 1, rfl, .inl rfl, rfl, by decide⟩

/-- **C161, the order matters.** If threads arrive with `relaxed` order, there is an execution with a data race. -/
theorem C161_relaxed_race : ∃ threads : List (List (Event desk Nat)),
    Run (fun o => o = .relaxed) (fun _ => 0#8) (fun _ => 2#8) threads false 2 ∧ Part threads false 2 0 ∧ Race threads 0 := by
  have hno : ∀ t n t' n', HB (meet .relaxed) t n t' n' → t = t' := by
    intro t n t' n' h
    induction h with
    | same => rfl
    | bits k t n t' n' q q' h h' hs =>
      match t, n with
      | 0, 0 | 0, 1 | 1, 0 | 1, 1 | 2, 0 | 2, 1 | 2, 2 | 2, 3 => cases h
      | 0, _ + 2 | 1, _ + 2 | 2, _ + 4 => cases h
      | _ + 3, _ => simp [eventAt, meet] at h
    | num a t n t' n' q q' h h' hs =>
      obtain ⟨r, r', _, _, _, _, _, _, _, _, j, h1, h2, h3, _, _, h5, _, _, h6, h7, _⟩ := hs
      rw [part_callAt h (num?_eq a _), Option.some.injEq] at h1
      subst h1
      match t, n with
      | 0, 1 | 1, 1 => cases h; cases h3; cases h5
      | 2, 0 | 2, 1 => cases h; cases h6
      | 0, 0 | 1, 0 | 2, 2 | 2, 3 => cases h
      | 0, _ + 2 | 1, _ + 2 | 2, _ + 4 => cases h
      | _ + 3, _ => simp [eventAt, meet] at h
    | trans _ _ _ _ _ _ _ _ ih ih' => exact ih.trans ih'
  refine ⟨meet .relaxed, meet_run (.inr rfl) rfl, meet_part _, 0, 0, true, 2, 2, false, rfl, rfl, .inl rfl, by decide, fun h => ?_, fun h => ?_⟩
  · cases hno _ _ _ _ h
  · cases hno _ _ _ _ h

end Verif.Latch
