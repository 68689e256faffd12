import Verif.Timers.Spec
import Verif.IList.Props
import Verif.Rollover.Props

/-!
# C143: timers on an intrusive list ordered by rolling-over times
-/

namespace Verif.Timers

open Verif.IList (Ptr Links WorldOk)

theorem cmpLess_near {w : Nat} (h31 : w ≠ 31) (hw : 0 < w) {a b : Int} (hn : Near w a b) :
    Rollover.cmpLess (Rollover.ofInteger w a) (Rollover.ofInteger w b) = .ok (decide (a < b)) := by
  rw [Rollover.C34_cmp_less_iff h31 hw]
  congr 1
  rw [decide_eq_decide]
  obtain ⟨h1, h2⟩ := hn
  have hpow : (2 : Int) ^ w = 2 * 2 ^ (w - 1) := by
    obtain ⟨k, rfl⟩ : ∃ k, w = k + 1 := ⟨w - 1, by omega⟩
    rw [Int.pow_succ, Int.mul_comm]; rfl
  have hc : ((2 ^ (w - 1) : Nat) : Int) = 2 ^ (w - 1) := by simp
  generalize hH : (2 : Int) ^ (w - 1) = H at *
  have key : ∀ d : Nat, BitVec.ofInt w a + BitVec.ofNat w d = BitVec.ofInt w (a + d) := by
    intro d; rw [BitVec.ofInt_add]; simp
  unfold Rollover.ofInteger
  constructor
  · rintro ⟨d, d1, d2, e⟩
    rw [key] at e
    have d2' : (d : Int) ≤ H := by rw [← hc]; exact_mod_cast d2
    have e2 := congrArg BitVec.toInt e
    rw [BitVec.toInt_ofInt, BitVec.toInt_ofInt, Int.bmod_eq_bmod_iff_bmod_sub_eq_zero] at e2
    have e3 := Int.dvd_of_bmod_eq_zero e2
    obtain ⟨q, hq⟩ := e3
    have hp2 : ((2 ^ w : Nat) : Int) = 2 * H := by rw [← hpow]; simp
    rw [hp2] at hq
    have : q = 0 := by
      have hHp : 0 < H := by omega
      have l1 : -(2 * H) < 2 * H * q := by omega
      have l2 : 2 * H * q < 2 * H := by omega
      have q1 : q < 1 := by
        by_contra hh
        have : 2 * H * 1 ≤ 2 * H * q := Int.mul_le_mul_of_nonneg_left (by omega) (by omega)
        omega
      have q2 : -1 < q := by
        by_contra hh
        have : 2 * H * q ≤ 2 * H * (-1) := Int.mul_le_mul_of_nonneg_left (by omega) (by omega)
        omega
      omega
    subst this
    omega
  · intro hlt
    refine ⟨(b - a).toNat, by omega, ?_, ?_⟩
    · have : (((b - a).toNat : Nat) : Int) ≤ ((2 ^ (w - 1) : Nat) : Int) := by rw [hc]; omega
      exact_mod_cast this
    · rw [key]; congr 1; omega

theorem seek_ok {w : Nat} (h31 : w ≠ 31) (hw : 0 < w) {h : IList.Heap} {due : Nat → BitVec w} {t : Int} :
    ∀ (M : List (Nat × Int)) {p : Ptr} {fuel : Nat}, Links h p (M.map Prod.fst) none → M.length ≤ fuel →
    (∀ e ∈ M, due e.1 = Rollover.ofInteger w e.2) → (∀ e ∈ M, Near w t e.2) →
    seek h due (Rollover.ofInteger w t) fuel (M.map Prod.fst).head? =
      .ok ((M.dropWhile (fun e => e.2 ≤ t)).map Prod.fst).head? := by
  intro M
  induction M with
  | nil => intro p fuel _ _ _ _; cases fuel <;> rfl
  | cons e M ih =>
    intro p fuel hl hf hd hn
    cases fuel with
    | zero => simp at hf
    | succ k =>
      have e1 := IList.rd_ok hl.1
      simp only [List.map_cons, List.head?_cons, seek, IList.deref, IList.refTo, IList.inc]
      rw [e1]
      simp only [Outcome.ok_bind, Outcome.pure_eq_ok]
      rw [hd e (by simp), cmpLess_near h31 hw (hn e (by simp))]
      simp only [Outcome.ok_bind]
      by_cases hlt : t < e.2
      · have : ¬ e.2 ≤ t := by omega
        simp [hlt, this]
      · have : e.2 ≤ t := by omega
        simp only [hlt, decide_false, Bool.false_eq_true, if_false, this, decide_true, List.dropWhile_cons_of_pos]
        have := ih hl.2 (by simp at hf; omega) (fun x hx => hd x (by simp [hx])) (fun x hx => hn x (by simp [hx]))
        simpa using this

/-- The invariant: the list is sorted, and holds the pending timers of each time in the order of scheduling. -/
structure Inv (w size : Nat) (s : State w) (p M : Pending) : Prop where
  ok : WorldOk cfg s.world (fun _ => M.map Prod.fst)
  len : s.world.heap.length = size
  sorted : M.Pairwise (fun a b => a.2 ≤ b.2)
  same : ∀ d, (M.filter fun e => e.2 = d) = p.filter fun e => e.2 = d
  due : ∀ e ∈ M, s.due e.1 = Rollover.ofInteger w e.2

theorem Inv.mem {w size : Nat} {s : State w} {p M : Pending} (h : Inv w size s p M) (e : Nat × Int) : e ∈ M ↔ e ∈ p := by
  have := congrArg (e ∈ ·) (h.same e.2)
  simpa using this

theorem dropWhile_sorted {M : Pending} (h : M.Pairwise (fun a b => a.2 ≤ b.2)) (t : Int) :
    ∀ e ∈ M.dropWhile (fun e => e.2 ≤ t), t < e.2 := by
  induction M with
  | nil => simp
  | cons x M ih =>
    intro e he
    rw [List.pairwise_cons] at h
    by_cases hx : x.2 ≤ t
    · rw [List.dropWhile_cons_of_pos (by simpa using hx)] at he; exact ih h.2 e he
    · rw [List.dropWhile_cons_of_neg (by simpa using hx)] at he
      rcases List.mem_cons.mp he with rfl | he
      · omega
      · have := h.1 e he; omega

theorem takeWhile_le {M : Pending} (t : Int) : ∀ e ∈ M.takeWhile (fun e => e.2 ≤ t), e.2 ≤ t := by
  induction M with
  | nil => simp
  | cons x M ih =>
    intro e he
    by_cases hx : x.2 ≤ t
    · rw [List.takeWhile_cons_of_pos (by simpa using hx)] at he
      rcases List.mem_cons.mp he with rfl | he
      · exact hx
      · exact ih e he
    · rw [List.takeWhile_cons_of_neg (by simpa using hx)] at he
      cases he

theorem filter_drop {M : Pending} (h : M.Pairwise (fun a b => a.2 ≤ b.2)) (t d : Int) :
    ((M.dropWhile fun e => e.2 ≤ t).filter fun e => e.2 = d) = if d ≤ t then [] else M.filter fun e => e.2 = d := by
  split
  · rename_i hd
    rw [List.filter_eq_nil_iff]
    intro e he; have := dropWhile_sorted h t e he; simp; omega
  · rename_i hd
    conv_rhs => rw [← List.takeWhile_append_dropWhile (p := fun e : Nat × Int => decide (e.2 ≤ t)) (l := M), List.filter_append]
    rw [show ((M.takeWhile fun e => e.2 ≤ t).filter fun e => e.2 = d) = [] from ?_]
    · rfl
    · rw [List.filter_eq_nil_iff]
      intro e he; have := takeWhile_le t e he; simp; omega

theorem filter_take {M : Pending} (h : M.Pairwise (fun a b => a.2 ≤ b.2)) (t d : Int) :
    ((M.takeWhile fun e => e.2 ≤ t).filter fun e => e.2 = d) = if d ≤ t then M.filter fun e => e.2 = d else [] := by
  split
  · rename_i hd
    conv_rhs => rw [← List.takeWhile_append_dropWhile (p := fun e : Nat × Int => decide (e.2 ≤ t)) (l := M), List.filter_append]
    rw [filter_drop h, if_pos hd, List.append_nil]
  · rename_i hd
    rw [List.filter_eq_nil_iff]
    intro e he; have := takeWhile_le t e he; simp; omega

theorem drain_ok {w : Nat} (h31 : w ≠ 31) (hw : 0 < w) {due : Nat → BitVec w} {now : Int} :
    ∀ (M : Pending) {k : Nat} {l : IList.World Unit}, WorldOk cfg l (fun _ => M.map Prod.fst) → M.length ≤ k →
    (∀ e ∈ M, due e.1 = Rollover.ofInteger w e.2) → (∀ e ∈ M, Near w now e.2) →
    ∃ l', drain due (Rollover.ofInteger w now) k l = .ok (l', (M.takeWhile fun e => e.2 ≤ now).map Prod.fst) ∧
      WorldOk cfg l' (fun _ => (M.dropWhile fun e => e.2 ≤ now).map Prod.fst) ∧ l'.heap.length = l.heap.length := by
  intro M
  induction M with
  | nil =>
    intro k l hl _ _ _
    refine ⟨l, ?_, hl, rfl⟩
    have := (hl.wf ()).head
    simp at this
    cases k <;> simp [drain, this]
  | cons e M ih =>
    intro k l hl hf hd hn
    cases k with
    | zero => simp at hf
    | succ k =>
      have hh := (hl.wf ()).head
      simp only [List.map_cons, List.head?_cons] at hh
      have e1 := IList.rd_ok (hl.wf ()).links.1
      unfold drain
      rw [hh]
      simp only [IList.refTo]
      rw [e1]
      simp only [Outcome.ok_bind, Outcome.pure_eq_ok]
      rw [hd e (by simp), cmpLess_near h31 hw (hn e (by simp))]
      simp only [Outcome.ok_bind]
      by_cases hlt : now < e.2
      · have : ¬ e.2 ≤ now := by omega
        refine ⟨l, by simp [hlt, this], ?_, rfl⟩
        rw [List.dropWhile_cons_of_neg (by simpa using this)]
        exact hl
      · have hle : e.2 ≤ now := by omega
        obtain ⟨l1, s1, n1, o1, _⟩ := IList.stepW_ok (c := cfg) hl (i := ()) (o := .popFront) (L' := M.map Prod.fst)
          (r := .node (some e.1)) (by simp [IList.specStep]) ⟨fun m hm => by simp [IList.Op.added] at hm, fun m hm => by simp at hm⟩
        have o1' : WorldOk cfg l1 (fun _ => M.map Prod.fst) := by simpa using o1
        obtain ⟨l2, s2, o2, n2⟩ := ih (k := k) o1' (by simp at hf; omega) (fun x hx => hd x (by simp [hx])) (fun x hx => hn x (by simp [hx]))
        refine ⟨l2, ?_, ?_, by omega⟩
        · simp only [hlt, decide_false, Bool.false_eq_true, if_false, s1, Outcome.ok_bind, s2]
          simp [hle]
        · rw [List.dropWhile_cons_of_pos (by simpa using hle)]
          exact o2

theorem step_ok {w size : Nat} (h31 : w ≠ 31) (hw : 0 < w) {s : State w} {p M : Pending} (hi : Inv w size s p M)
    {c : Cmd Int} (ha : May w size p c) :
    ∃ s' o M', step s (c.map (Rollover.ofInteger w)) = .ok (s', o) ∧ Inv w size s' (next p c) M' ∧ Answer p o c := by
  have hlen : M.length ≤ s.world.heap.length := by
    have := IList.wf_len (hi.ok.wf ()); simpa using this
  cases c with
  | schedule n t =>
    obtain ⟨hn, hnew, hnear⟩ := ha
    have hnM : ∀ e ∈ M, e.1 ≠ n := fun e he => hnew e ((hi.mem e).mp he)
    have hdue : ∀ e ∈ M, (fun m => if m = n then Rollover.ofInteger w t else s.due m) e.1 = Rollover.ofInteger w e.2 := by
      intro e he
      simp only [hnM e he, if_false]
      exact hi.due e he
    have e1 := seek_ok (due := fun m => if m = n then Rollover.ofInteger w t else s.due m) h31 hw (t := t) M (hi.ok.wf ()).links hlen hdue (fun e he => hnear e ((hi.mem e).mp he))
    let M' := M.takeWhile (fun e => e.2 ≤ t) ++ (n, t) :: M.dropWhile (fun e => e.2 ≤ t)
    have hsp : IList.specStep (M.map Prod.fst) (.insert ((M.dropWhile (fun e => e.2 ≤ t)).map Prod.fst).head? n) =
        some (M'.map Prod.fst, .unit) := by
      have hM := List.takeWhile_append_dropWhile (p := fun e : Nat × Int => decide (e.2 ≤ t)) (l := M)
      have hnd := (hi.ok.wf ()).nodup
      cases hD : M.dropWhile (fun e => decide (e.2 ≤ t)) with
      | nil =>
        rw [hD, List.append_nil] at hM
        simp only [List.map_nil, List.head?_nil, IList.specStep, M', hM, hD]
        simp
      | cons x B =>
        rw [hD] at hM
        have hM2 : M.map Prod.fst = (M.takeWhile (fun e => e.2 ≤ t)).map Prod.fst ++ x.1 :: B.map Prod.fst := by
          conv_lhs => rw [← hM]
          simp
        simp only [List.map_cons, List.head?_cons, IList.specStep, M', hD]
        rw [hM2] at hnd ⊢
        rw [if_pos (by simp)]
        generalize (M.takeWhile (fun e => decide (e.2 ≤ t))) = A at *
        have hx : ∀ y ∈ A.map Prod.fst, decide (y ≠ x.1) = true := by
          intro y hy
          have := (List.nodup_append.mp hnd).2.2 y hy x.1 (by simp)
          simpa using this
        rw [List.takeWhile_append_of_pos hx, List.dropWhile_append_of_pos hx]
        simp
    obtain ⟨l1, s1, n1, o1, _⟩ := IList.stepW_ok (c := cfg) hi.ok (i := ()) hsp
      ⟨fun m hm => by
        simp only [IList.Op.added, Option.some.injEq] at hm
        subst hm
        refine ⟨by rw [hi.len]; exact hn, fun _ hmem => ?_⟩
        obtain ⟨e, he, h1⟩ := List.mem_map.mp hmem
        exact hnM e he h1, fun _ _ _ => rfl⟩
    refine ⟨⟨l1, fun m => if m = n then Rollover.ofInteger w t else s.due m⟩, [], M', ?_, ⟨by simpa using o1, n1.trans hi.len, ?_, ?_, ?_⟩, rfl⟩
    · simp only [Cmd.map, step]
      rw [(hi.ok.wf ()).head, e1]
      simp only [Outcome.ok_bind, s1, Outcome.pure_eq_ok]
    · have hs := hi.sorted
      have hd := dropWhile_sorted hs t
      rw [List.pairwise_append]
      refine ⟨hs.sublist (List.takeWhile_sublist _), ?_, ?_⟩
      · rw [List.pairwise_cons]
        refine ⟨fun e he => ?_, hs.sublist (List.dropWhile_sublist _)⟩
        have := hd e he; simp only; omega
      · intro a ha b hb
        have h1 := takeWhile_le t a ha
        rcases List.mem_cons.mp hb with rfl | hb
        · exact h1
        · have := hd b hb; omega
    · intro d
      simp only [M', next, List.filter_append, List.filter_cons, filter_drop hi.sorted, filter_take hi.sorted, List.filter_nil]
      rw [← hi.same d]
      by_cases hd : d ≤ t
      · simp only [hd, if_true]
      · have : t ≠ d := by omega
        simp [hd, this]
    · intro e he
      rcases List.mem_append.mp he with he | he
      · exact hdue e ((List.takeWhile_sublist _).subset he)
      · rcases List.mem_cons.mp he with rfl | he
        · simp
        · exact hdue e ((List.dropWhile_sublist _).subset he)
  | cancel n =>
    obtain ⟨e, he, rfl⟩ := ha
    have heM := (hi.mem e).mpr he
    obtain ⟨l1, s1, n1, o1, _⟩ := IList.stepW_ok (c := cfg) hi.ok (i := ()) (o := .remove e.1)
      (L' := (M.filter fun x => x.1 ≠ e.1).map Prod.fst) (r := .unit) (by
        simp only [IList.specStep]
        rw [if_pos (List.mem_map.mpr ⟨e, heM, rfl⟩), List.filter_map]
        rfl) ⟨fun m hm => by simp [IList.Op.added] at hm, fun m hm => by simp at hm⟩
    refine ⟨⟨l1, s.due⟩, [], M.filter fun x => x.1 ≠ e.1, ?_, ⟨by simpa using o1, n1.trans hi.len, hi.sorted.sublist List.filter_sublist, ?_, ?_⟩, rfl⟩
    · simp only [Cmd.map, step, s1, Outcome.ok_bind, Outcome.pure_eq_ok]
    · intro d
      simp only [next]
      rw [List.filter_filter, List.filter_filter]
      have := congrArg (List.filter fun x => decide (x.1 ≠ e.1)) (hi.same d)
      rw [List.filter_filter, List.filter_filter] at this
      simpa [Bool.and_comm] using this
    · intro x hx
      exact hi.due x (List.mem_filter.mp hx).1
  | expire now =>
    obtain ⟨l1, s1, o1, n1⟩ := drain_ok h31 hw M hi.ok hlen hi.due (fun e he => ha e ((hi.mem e).mp he))
    refine ⟨⟨l1, s.due⟩, _, M.dropWhile fun e => e.2 ≤ now, ?_, ⟨o1, n1.trans hi.len, hi.sorted.sublist (List.dropWhile_sublist _), ?_, ?_⟩,
      M.takeWhile fun e => e.2 ≤ now, ⟨hi.sorted.sublist (List.takeWhile_sublist _), fun d => ?_⟩, rfl⟩
    · simp only [Cmd.map, step, s1, Outcome.ok_bind, Outcome.pure_eq_ok]
    · intro d
      rw [filter_drop hi.sorted, hi.same]
      simp only [next]
      rw [List.filter_filter]
      split
      · symm
        rw [List.filter_eq_nil_iff]
        intro x _; simp; intro h1; omega
      · apply List.filter_congr
        intro x _
        by_cases hx : x.2 = d
        · simp [hx]; omega
        · simp [hx]
    · intro x hx
      exact hi.due x ((List.dropWhile_sublist _).subset hx)
    · rw [filter_take hi.sorted, hi.same]

theorem run_ok {w size : Nat} (h31 : w ≠ 31) (hw : 0 < w) : ∀ (cs : List (Cmd Int)) {s : State w} {p M : Pending}, Inv w size s p M →
    Admissible w size p cs → ∃ s' outs, run s (cs.map (Cmd.map (Rollover.ofInteger w))) = .ok (s', outs) ∧ Gives p cs outs := by
  intro cs
  induction cs with
  | nil => intro s p M _ _; exact ⟨s, [], rfl, rfl⟩
  | cons c cs ih =>
    intro s p M hi ha
    obtain ⟨s1, o, M1, e1, hi1, ho⟩ := step_ok h31 hw hi ha.1
    obtain ⟨s2, os, e2, hg⟩ := ih hi1 ha.2
    refine ⟨s2, o :: os, ?_, o, os, rfl, ho, hg⟩
    simp only [List.map_cons, run, e1, Outcome.ok_bind, e2, Outcome.pure_eq_ok]

/-- The timers before the first call: an empty list over nodes with null links. -/
def initial {w : Nat} (h : IList.Heap) (due : Nat → BitVec w) : State w := ⟨IList.start Unit h, due⟩

/-- **C143.** Every history of timers, of any length and over any number of nodes, in which pending times are less than half of the range
before and at most half of the range after the time of a call, is defined, and each call that expires timers takes out exactly those that are
due in true time, earliest first and those of the same time in the order in which they were scheduled: however often the time rolls over. -/
theorem C143_timers {w : Nat} (h31 : w ≠ 31) (hw : 0 < w) {h : IList.Heap} (hf : ∀ nd ∈ h, nd = ⟨none, none⟩) (due : Nat → BitVec w)
    {cs : List (Cmd Int)} (ha : Admissible w h.length [] cs) :
    ∃ s outs, run (initial h due) (cs.map (Cmd.map (Rollover.ofInteger w))) = .ok (s, outs) ∧ Gives [] cs outs :=
  run_ok h31 hw cs (M := []) ⟨IList.start_ok (fun _ => hf), rfl, by simp, by simp, by simp⟩ ha

/-- Four timers of 8 bits across a rollover: two of the same time, one cancelled, one that is due after the rollover. -/
example : Admissible 8 4 [] [.schedule 0 250, .schedule 1 300, .schedule 2 250, .schedule 3 260, .cancel 3, .expire 249, .expire 255,
    .schedule 0 310, .expire 310] := by
  simp [Admissible, May, next, Near]

example : (match run (initial (w := 8) (List.replicate 4 ⟨none, none⟩) (fun _ => 0))
    ([.schedule 0 250, .schedule 1 300, .schedule 2 250, .schedule 3 260, .cancel 3, .expire 249, .expire 255,
      .schedule 0 310, .expire 310].map (Cmd.map (Rollover.ofInteger 8))) with | .ok (_, o) => o | _ => []) =
    [[], [], [], [], [], [], [0, 2], [], [1, 0]] := by decide

/-- What a history of one timer returns. -/
theorem single_run {w : Nat} (h31 : w ≠ 31) (hw : 0 < w) {h : IList.Heap} (hf : ∀ nd ∈ h, nd = ⟨none, none⟩) (hl : 0 < h.length)
    (due : Nat → BitVec w) {t now : Int} (k : Int) (hn : Near w now (t + 2 ^ w * k)) :
    ∃ s, run (initial h due) ([.schedule 0 t, .expire now].map (Cmd.map (Rollover.ofInteger w))) =
      .ok (s, [[], if now < t + 2 ^ w * k then [] else [0]]) := by
  have hmay : May w h.length [] (.schedule 0 t) := ⟨hl, by simp, by simp⟩
  obtain ⟨s1, o1, M1, e1, hi1, a1⟩ := step_ok h31 hw (s := initial h due) (M := [])
    ⟨IList.start_ok (fun _ => hf), rfl, by simp, by simp, by simp⟩ hmay
  have hM : M1 = [(0, t)] := by
    have hs := hi1.same t
    simp only [next, List.nil_append] at hs
    have hall : ∀ e ∈ M1, e.2 = t := by
      intro e he
      have := (hi1.mem e).mp he
      simp [next] at this
      simp [this]
    rw [List.filter_eq_self.mpr (by simpa using hall)] at hs
    simpa using hs
  subst hM
  let e' : Nat × Int := (0, t + 2 ^ w * k)
  have hd : s1.due 0 = Rollover.ofInteger w (t + 2 ^ w * k) := by
    rw [hi1.due (0, t) (by simp)]
    unfold Rollover.ofInteger
    apply BitVec.eq_of_toInt_eq
    rw [BitVec.toInt_ofInt, BitVec.toInt_ofInt]
    have : t + 2 ^ w * k = t + ((2 ^ w : Nat) : Int) * k := by simp
    rw [this, Int.add_mul_bmod_self_left]
  obtain ⟨l2, e2, _, _⟩ := drain_ok h31 hw (now := now) (due := s1.due) [e'] (k := s1.world.heap.length) (l := s1.world) hi1.ok
    (by have := hi1.len; simp only [List.length_cons, List.length_nil]; change _ = h.length at this; omega) (by simpa [e'] using hd) (by simpa [e'] using hn)
  refine ⟨⟨l2, s1.due⟩, ?_⟩
  have ho : o1 = [] := a1
  subst ho
  simp only [List.map_cons, List.map_nil, run, e1, Outcome.ok_bind, Outcome.pure_eq_ok]
  simp only [Cmd.map, step, e2, Outcome.ok_bind, Outcome.pure_eq_ok]
  by_cases hc : now < t + 2 ^ w * k
  · have : ¬ e'.2 ≤ now := by simp only [e']; omega
    rw [if_pos hc, List.takeWhile_cons_of_neg (by simpa using this)]; rfl
  · have : e'.2 ≤ now := by simp only [e']; omega
    rw [if_neg hc, List.takeWhile_cons_of_pos (by simpa using this)]; rfl

theorem single_gives {t now : Int} {o : List Nat} (h : Gives [] [.schedule 0 t, .expire now] [[], o]) :
    o = if t ≤ now then [0] else [] := by
  obtain ⟨_, _, h1, -, o', _, h2, ⟨E, hE, he⟩, -⟩ := h
  simp only [List.cons.injEq] at h1 h2
  rw [← h1.2] at h2
  simp only [List.cons.injEq] at h2
  rw [h2.1, he]
  have hall : ∀ e ∈ E, e.2 = t ∧ t ≤ now := by
    intro e he
    have := hE.2 e.2
    have hm : e ∈ E.filter fun x => x.2 = e.2 := by simp [he]
    rw [this] at hm
    split at hm
    · simp [next] at hm
      rename_i hle
      rw [hm] at hle
      exact ⟨by rw [hm], hle⟩
    · cases hm
  have ht := hE.2 t
  rw [List.filter_eq_self.mpr (by simpa using fun a b h => (hall (a, b) h).1)] at ht
  rw [ht]
  simp only [next, List.nil_append]
  split <;> simp

/-- **C143, too far ahead.** A timer that is scheduled more than half of the range ahead, and no more than the whole range, expires at once. -/
theorem C143_too_far_fails {w : Nat} (h31 : w ≠ 31) (hw : 0 < w) {h : IList.Heap} (hf : ∀ nd ∈ h, nd = ⟨none, none⟩) (hl : 0 < h.length)
    (due : Nat → BitVec w) {t now : Int} (h1 : 2 ^ (w - 1) < t - now) (h2 : t - now ≤ 2 ^ w) :
    ∃ s, run (initial h due) ([.schedule 0 t, .expire now].map (Cmd.map (Rollover.ofInteger w))) = .ok (s, [[], [0]]) ∧
      ¬ Gives [] [.schedule 0 t, .expire now] [[], [0]] := by
  have hpow : (2 : Int) ^ w = 2 * 2 ^ (w - 1) := by
    obtain ⟨k, rfl⟩ : ∃ k, w = k + 1 := ⟨w - 1, by omega⟩
    rw [Int.pow_succ, Int.mul_comm]; rfl
  have hp : (0 : Int) < 2 ^ (w - 1) := Int.pow_pos (by decide)
  obtain ⟨s, e⟩ := single_run h31 hw hf hl due (t := t) (now := now) (-1) ⟨by omega, by omega⟩
  refine ⟨s, ?_, fun hg => ?_⟩
  · rw [e, if_neg (by omega)]
  · have := single_gives hg
    rw [if_neg (by omega)] at this
    simp at this

/-- **C143, too late.** A timer whose time passed half of the range ago or longer, and less than the whole range, does not expire. -/
theorem C143_too_late_fails {w : Nat} (h31 : w ≠ 31) (hw : 0 < w) {h : IList.Heap} (hf : ∀ nd ∈ h, nd = ⟨none, none⟩) (hl : 0 < h.length)
    (due : Nat → BitVec w) {t now : Int} (h1 : 2 ^ (w - 1) ≤ now - t) (h2 : now - t < 2 ^ w) :
    ∃ s, run (initial h due) ([.schedule 0 t, .expire now].map (Cmd.map (Rollover.ofInteger w))) = .ok (s, [[], []]) ∧
      ¬ Gives [] [.schedule 0 t, .expire now] [[], []] := by
  have hpow : (2 : Int) ^ w = 2 * 2 ^ (w - 1) := by
    obtain ⟨k, rfl⟩ : ∃ k, w = k + 1 := ⟨w - 1, by omega⟩
    rw [Int.pow_succ, Int.mul_comm]; rfl
  have hp : (0 : Int) < 2 ^ (w - 1) := Int.pow_pos (by decide)
  obtain ⟨s, e⟩ := single_run h31 hw hf hl due (t := t) (now := now) 1 ⟨by omega, by omega⟩
  refine ⟨s, ?_, fun hg => ?_⟩
  · rw [e, if_pos (by omega)]
  · have := single_gives hg
    rw [if_pos (by omega)] at this
    simp at this

/-- 8 bits: 129 ahead, and 128 late. -/
example : (2 : Int) ^ (8 - 1) < 229 - 100 ∧ (229 : Int) - 100 ≤ 2 ^ 8 ∧ (2 : Int) ^ (8 - 1) ≤ 228 - 100 ∧ (228 : Int) - 100 < 2 ^ 8 := by decide

end Verif.Timers
