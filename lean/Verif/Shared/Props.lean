import Verif.Shared.Spec
import Verif.AtomicBitset.PropsOrder

/-!
# C148: identifiers shared by threads
-/

namespace Verif.Shared

open Verif.Conc Verif.Bitset
open Verif.BitOps (StdWidth)

variable {w N tries : Nat}

/-! ## Histories -/

theorem evs_snoc (t : Nat) (h : List Ev) (e : Ev) : evs t (h ++ [e]) = if e.tid = t then evs t h ++ [e.res] else evs t h := by
  unfold evs
  rw [List.filter_append, List.map_append]
  by_cases he : e.tid = t <;> simp [he]

theorem owner_snoc (h : List Ev) (e : Ev) (i : Nat) : owner (h ++ [e]) i = owns i (owner h i) e := by simp [owner]

theorem since_snoc (t : Nat) (h : List Ev) (e : Ev) : since t (h ++ [e]) = counts t (since t h) e := by simp [since]

theorem Replies.append {held cs rs held' cs' rs' held''} (h : Replies held cs rs held') (h' : Replies held' cs' rs' held'') :
    Replies held (cs ++ cs') (rs ++ rs') held'' := by
  induction h with
  | nil => exact h'
  | got _ ih => exact .got (ih h')
  | full _ ih => exact .full (ih h')
  | busy _ ih => exact .busy (ih h')
  | gave hj _ ih => exact .gave hj (ih h')
  | skip hj _ ih => exact .skip hj (ih h')

/-! ## Where a thread is -/

/-- At the end, before a `load`, a `set` of `i` or a `reset` of the `j`-th identifier `i`; `k` tries are left after this one. -/
inductive Phase where
  | done
  | load (k : Nat)
  | take (i k : Nat)
  | free (j i : Nat)

/-- Where a thread is: the commands after the current one, what it holds, its results. -/
structure Loc where
  phase : Phase
  rest : List Cmd
  held : List Nat
  log : List Res

/-- What is done after `acquire`. -/
def cont (N tries : Nat) (l : Loc) (r : Res) : Prog w (List Nat × List Res) := thread N tries l.rest (r.hold l.held) (l.log ++ [r])

/-- The program a thread has still to run. -/
def Loc.prog (N tries : Nat) (l : Loc) : Prog w (List Nat × List Res) :=
  match l.phase with
  | .done => .ret (l.held, l.log)
  | .load k => (acquire N (k + 1)).bind (cont N tries l)
  | .take i k => (take N i (acquire N k)).bind (cont N tries l)
  | .free j i => (AtomicBitset.impl N (.reset i)).bind fun _ => thread N tries l.rest (l.held.eraseIdx j) (l.log ++ [.gave i])

/-- What is known where a thread is, that has been given the commands `cs`. -/
def Phase.Ok (N tries t : Nat) (h : List Ev) (cs cs1 rest : List Cmd) (held : List Nat) : Phase → Prop
  | .done => cs = cs1
  | .load k => cs = cs1 ++ .acquire :: rest ∧ tries ≤ since t h + (k + 1)
  | .take i k => cs = cs1 ++ .acquire :: rest ∧ tries ≤ since t h + (k + 1) ∧ i < N ∧ (owner h i ≠ none → tries ≤ since t h + k)
  | .free j i => cs = cs1 ++ .release j :: rest ∧ held[j]? = some i

/-- The same with what it holds and its results. -/
structure Loc.Ok (N tries t : Nat) (h : List Ev) (cs : List Cmd) (l : Loc) : Prop where
  log : l.log = evs t h
  nodup : l.held.Nodup
  mem : ∀ i, i ∈ l.held ↔ owner h i = some t
  phase : ∃ cs1, Replies [] cs1 (evs t h) l.held ∧ l.phase.Ok N tries t h cs cs1 l.rest l.held

/-- Where a thread is when it starts on its next command. -/
theorem next_ok (ht : 0 < tries) {t : Nat} {h : List Ev} {held : List Nat} {cs : List Cmd} (hn : held.Nodup) (hm : ∀ i, i ∈ held ↔ owner h i = some t) :
    ∀ (rest cs1 : List Cmd), cs = cs1 ++ rest → Replies [] cs1 (evs t h) held →
    ∃ l : Loc, l.prog (w := w) N tries = thread N tries rest held (evs t h) ∧ l.Ok N tries t h cs := by
  intro rest
  induction rest with
  | nil =>
    intro cs1 hc hr
    exact ⟨⟨.done, [], held, evs t h⟩, rfl, rfl, hn, hm, cs1, hr, show cs = cs1 by simpa using hc⟩
  | cons c rest ih =>
    intro cs1 hc hr
    cases c with
    | acquire =>
      obtain ⟨k, rfl⟩ : ∃ k, tries = k + 1 := ⟨tries - 1, by omega⟩
      exact ⟨⟨.load k, rest, held, evs t h⟩, rfl, rfl, hn, hm, cs1, hr, hc, by omega⟩
    | release j =>
      cases hj : held[j]? with
      | none =>
        obtain ⟨l, e, hl⟩ := ih (cs1 ++ [.release j]) (by simpa using hc) (by simpa using hr.append (.skip hj (.nil held)))
        exact ⟨l, by rw [e, thread, hj], hl⟩
      | some i =>
        exact ⟨⟨.free j i, rest, held, evs t h⟩, by rw [thread, hj]; rfl, rfl, hn, hm, cs1, hr, hc, hj⟩

/-- An event of another thread. -/
theorem other_ok {u t : Nat} (hut : t ≠ u) {h : List Ev} {r : Res} (hh : History N tries (h ++ [⟨t, r⟩]))  {cs : List Cmd} {l : Loc}
    (hl : l.Ok N tries u h cs) : l.Ok N tries u (h ++ [⟨t, r⟩]) cs := by
  have hlegal : (∀ i, r = .got i → owner h i = none) ∧ (∀ i, r = .gave i → owner h i = some t) := by
    generalize hx : h ++ [⟨t, r⟩] = x at hh
    cases hh with
    | nil => simp at hx
    | got hh t' i hi hf =>
      obtain ⟨rfl, h2⟩ := List.append_inj' hx rfl
      cases h2
      exact ⟨fun j hj => (by cases hj; exact hf), nofun⟩
    | full hh t' hf =>
      obtain ⟨rfl, h2⟩ := List.append_inj' hx rfl
      cases h2
      exact ⟨nofun, nofun⟩
    | busy hh t' hf =>
      obtain ⟨rfl, h2⟩ := List.append_inj' hx rfl
      cases h2
      exact ⟨nofun, nofun⟩
    | gave hh t' i hf =>
      obtain ⟨rfl, h2⟩ := List.append_inj' hx rfl
      cases h2
      exact ⟨nofun, fun j hj => (by cases hj; exact hf)⟩
  have hev : evs u (h ++ [⟨t, r⟩]) = evs u h := by rw [evs_snoc, if_neg hut]
  have hsi : since u h ≤ since u (h ++ [⟨t, r⟩]) := by
    rw [since_snoc]; unfold counts; rw [if_neg hut]; split <;> omega
  have hgo : ∀ i, r = .got i → since u (h ++ [⟨t, r⟩]) = since u h + 1 := by
    rintro i rfl; rw [since_snoc]; unfold counts; rw [if_neg hut]
  refine ⟨by rw [hev]; exact hl.log, hl.nodup, fun i => ?_, ?_⟩
  · rw [hl.mem, owner_snoc]
    cases r with
    | got j =>
      by_cases hj : j = i
      · subst hj
        simp [owns, hlegal.1 j rfl, hut]
      · simp [owns, hj]
    | gave j =>
      by_cases hj : j = i
      · subst hj
        simp [owns, hlegal.2 j rfl, hut]
      · simp [owns, hj]
    | full => rfl
    | busy => rfl
  · obtain ⟨cs1, h1, h2⟩ := hl.phase
    refine ⟨cs1, by rw [hev]; exact h1, ?_⟩
    generalize hp : l.phase = p at h2
    cases p with
    | done => exact h2
    | load k => exact ⟨h2.1, by have := h2.2; omega⟩
    | take i k =>
      obtain ⟨a, b, c, d⟩ := h2
      refine ⟨a, by omega, c, fun ho => ?_⟩
      rw [owner_snoc] at ho
      by_cases hold : owner h i = none
      · rw [hold] at ho
        cases r with
        | got j => rw [hgo j rfl]; omega
        | gave j => simp [owns] at ho
        | full => simp [owns] at ho
        | busy => simp [owns] at ho
      · have := d hold; omega
    | free j i => exact h2

/-! ## One step -/

theorem owner_tid {n : Nat} {h : List Ev} (hh : ∀ e, e ∈ h → e.tid < n) {i t : Nat} (ho : owner h i = some t) : t < n := by
  have key : ∀ (h : List Ev) (o : Option Nat), (∀ e, e ∈ h → e.tid < n) → (∀ t, o = some t → t < n) → ∀ t, h.foldl (owns i) o = some t → t < n := by
    intro h
    induction h with
    | nil => intro o _ ho; exact ho
    | cons e h ih =>
      intro o he ho
      refine ih _ (fun e' h' => he e' (List.mem_cons_of_mem _ h')) fun t ht => ?_
      unfold owns at ht
      split at ht
      · split at ht
        · cases ht; exact he e (by simp)
        · exact ho t ht
      · split at ht
        · cases ht
        · exact ho t ht
      · exact ho t ht
  exact key h none hh nofun t ho

theorem owner_lt {h : List Ev} (hh : History N tries h) {i t : Nat} (ho : owner h i = some t) : i < N := by
  induction hh with
  | nil => cases ho
  | got hh t' j hj hf ih =>
    rw [owner_snoc] at ho
    by_cases hji : j = i
    · subst hji; exact hj
    · simp only [owns, if_neg hji] at ho; exact ih ho
  | full hh t' hf ih => rw [owner_snoc] at ho; exact ih ho
  | busy hh t' hf ih => rw [owner_snoc] at ho; exact ih ho
  | gave hh t' j hf ih =>
    rw [owner_snoc] at ho
    by_cases hji : j = i
    · subst hji; simp [owns] at ho
    · simp only [owns, if_neg hji] at ho; exact ih ho

/-- The bits below `N` are the identifiers that are held. -/
def CellOk (N : Nat) (h : List Ev) (c : BitVec w) : Prop := ∀ i, i < N → c.getLsbD i = (owner h i).isSome

/-- A thread that is not finished takes a step, which ends one of its calls or none. -/
theorem step_ok (hw : StdWidth w) (hN : 0 < N) (hNw : N ≤ w) (ht : 0 < tries) {t : Nat} {h : List Ev} (hh : History N tries h)
    {c : BitVec w} (hc : CellOk N h c) {cs : List Cmd} {l : Loc} (hl : l.Ok N tries t h cs) :
    (l.phase = .done ∨ ∃ f k, l.prog N tries = .atomically f k ∧
      ∃ (h' : List Ev) (l' : Loc), k c = l'.prog (w := w) N tries ∧ CellOk N h' (f c) ∧ l'.Ok N tries t h' cs ∧
        (h' = h ∨ ∃ r, h' = h ++ [⟨t, r⟩] ∧ History N tries h')) := by
  have hw0 := StdWidth.pos hw
  have hB := storage_bounds hw0 N
  obtain ⟨cs1, hr, hp⟩ := hl.phase
  obtain ⟨ph, rest, held, log⟩ := l
  have hlog : log = evs t h := hl.log
  subst hlog
  have hn : held.Nodup := hl.nodup
  have hm : ∀ i, i ∈ held ↔ owner h i = some t := hl.mem
  have hown : ∀ i, i < N → (c.getLsbD i = true ↔ owner h i ≠ none) := by
    intro i hi
    rw [hc i hi]
    cases owner h i <;> simp
  simp only at hr hp
  cases ph with
  | done => exact .inl rfl
  | load k =>
    right
    obtain ⟨hcs, hs⟩ := hp
    obtain ⟨f, g, e1, e2, e3⟩ := AtomicBitset.impl_single hw hN hNw .load trivial
    obtain ⟨b, eb, hbl, hb⟩ := e3 c
    obtain ⟨i, ei, hi, hlow, hz⟩ := lowestUnsetLoop_spec hw b 0
    have hbits : ∀ j, j < N → bits b j = c.getLsbD j := by
      intro j hj
      have := hb j hj
      rw [get_bits hw0 (by rw [hbl]; omega)] at this
      injection this
    have hlu : lowestUnset b = .ok i := by rw [lowestUnset, ei, Nat.zero_add]
    have hcell : CellOk N h (f c) := by
      intro j hj
      rw [e2 c j hj]
      exact hc j hj
    refine ⟨f, _, by simp only [Loc.prog, acquire, e1, Prog.bind]; rfl, ?_⟩
    simp only [eb, hlu, Prog.ofOutcome, Prog.bind]
    by_cases hiN : i < N
    · refine ⟨h, ⟨.take i k, rest, held, evs t h⟩, by simp only [hiN, if_true]; rfl, hcell, ⟨rfl, hn, hm, cs1, hr, hcs, hs, hiN, fun ho => ?_⟩, .inl rfl⟩
      have h1 := hz (by rw [hbl]; omega)
      rw [hbits i hiN] at h1
      rw [(hown i hiN).2 ho] at h1
      cases h1
    · have hful : ∀ j, j < N → owner h j ≠ none := by
        intro j hj
        rw [← hown j hj, ← hbits j hj]
        exact hlow j (by omega)
      have hev : evs t (h ++ [⟨t, .full⟩]) = evs t h ++ [.full] := by rw [evs_snoc, if_pos rfl]
      have how : ∀ j, owner (h ++ [⟨t, .full⟩]) j = owner h j := fun j => by rw [owner_snoc]; rfl
      obtain ⟨l', e', hl'⟩ := next_ok (w := w) (N := N) ht (t := t) (h := h ++ [⟨t, .full⟩]) hn (fun j => by rw [how]; exact hm j) rest (cs1 ++ [.acquire]) (by simpa using hcs)
        (by rw [hev]; exact hr.append (.full (.nil held)))
      refine ⟨h ++ [⟨t, .full⟩], l', by simp only [hiN, if_false]; rw [e', hev]; rfl, fun j hj => by rw [how]; exact hcell j hj, hl', .inr ⟨_, rfl, .full hh t hful⟩⟩
  | take i k =>
    right
    obtain ⟨hcs, hs, hiN, ho⟩ := hp
    obtain ⟨f, g, e1, e2, e3⟩ := AtomicBitset.impl_single hw hN hNw (.set i true) (show i < w by omega)
    obtain ⟨b, eb, hbl, hb⟩ := e3 c
    refine ⟨f, _, by simp only [Loc.prog, take, e1, Prog.bind]; rfl, ?_⟩
    simp only [eb, hb i hiN, Prog.ofOutcome, Prog.bind]
    have hf : ∀ j, j < N → (f c).getLsbD j = if j = i then true else c.getLsbD j := by
      intro j hj
      rw [e2 c j hj]
      by_cases hji : j = i <;> simp [AtomicBitset.Op.after, AtomicBitset.Op.effect, hji]
    cases htk : c.getLsbD i with
    | true =>
      have hs' := ho ((hown i hiN).1 htk)
      have hcell : CellOk N h (f c) := by
        intro j hj
        rw [hf j hj]
        split
        · rename_i hji; rw [hji, ← hc i hiN, htk]
        · exact hc j hj
      simp only [if_true]
      cases k with
      | succ k => exact ⟨h, ⟨.load k, rest, held, evs t h⟩, rfl, hcell, ⟨rfl, hn, hm, cs1, hr, hcs, hs'⟩, .inl rfl⟩
      | zero =>
        have hev : evs t (h ++ [⟨t, .busy⟩]) = evs t h ++ [.busy] := by rw [evs_snoc, if_pos rfl]
        have how : ∀ j, owner (h ++ [⟨t, .busy⟩]) j = owner h j := fun j => by rw [owner_snoc]; rfl
        obtain ⟨l', e', hl'⟩ := next_ok (w := w) (N := N) ht (t := t) (h := h ++ [⟨t, .busy⟩]) hn (fun j => by rw [how]; exact hm j) rest (cs1 ++ [.acquire]) (by simpa using hcs)
          (by rw [hev]; exact hr.append (.busy (.nil held)))
        exact ⟨h ++ [⟨t, .busy⟩], l', by rw [e', hev]; rfl, fun j hj => by rw [how]; exact hcell j hj, hl', .inr ⟨_, rfl, .busy hh t (by omega)⟩⟩
    | false =>
      have hfree : owner h i = none := by
        have := hc i hiN
        rw [htk] at this
        cases hx : owner h i with
        | none => rfl
        | some u => rw [hx] at this; cases this
      have hev : evs t (h ++ [⟨t, .got i⟩]) = evs t h ++ [.got i] := by rw [evs_snoc, if_pos rfl]
      have how : ∀ j, owner (h ++ [⟨t, .got i⟩]) j = if i = j then some t else owner h j := fun j => by rw [owner_snoc]; rfl
      have hni : i ∉ held := fun hin => by rw [(hm i).1 hin] at hfree; cases hfree
      obtain ⟨l', e', hl'⟩ := next_ok (w := w) (N := N) ht (t := t) (h := h ++ [⟨t, .got i⟩]) (held := held ++ [i])
        (by rw [List.nodup_append]; exact ⟨hn, by simp, fun a ha b hb => by rw [List.mem_singleton] at hb; subst hb; rintro rfl; exact hni ha⟩)
        (fun j => by
          rw [how, List.mem_append, List.mem_singleton, hm]
          by_cases hij : i = j
          · subst hij; simp
          · simp [hij, Ne.symm hij]) rest (cs1 ++ [.acquire]) (by simpa using hcs)
        (by rw [hev]; exact hr.append (.got (.nil _)))
      refine ⟨h ++ [⟨t, .got i⟩], l', by rw [e', hev]; rfl, fun j hj => ?_, hl', .inr ⟨_, rfl, .got hh t i hiN hfree⟩⟩
      rw [hf j hj, how]
      by_cases hij : i = j
      · simp [hij]
      · rw [if_neg (Ne.symm hij), if_neg hij]; exact hc j hj
  | free j i =>
    right
    obtain ⟨hcs, hj⟩ := hp
    have hin : i ∈ held := List.mem_of_getElem? hj
    have hoi : owner h i = some t := (hm i).1 hin
    have hev : evs t (h ++ [⟨t, .gave i⟩]) = evs t h ++ [.gave i] := by rw [evs_snoc, if_pos rfl]
    have how : ∀ k, owner (h ++ [⟨t, .gave i⟩]) k = if i = k then none else owner h k := fun k => by rw [owner_snoc]; rfl
    have hiN : i < N := owner_lt hh hoi
    obtain ⟨f, g, e1, e2, e3⟩ := AtomicBitset.impl_single hw hN hNw (.reset i) (show i < w by omega)
    refine ⟨f, _, by simp only [Loc.prog, e1, Prog.bind]; rfl, ?_⟩
    obtain ⟨l', e', hl'⟩ := next_ok (w := w) (N := N) ht (t := t) (h := h ++ [⟨t, .gave i⟩]) (held := held.eraseIdx j)
      (hn.sublist (List.eraseIdx_sublist held j))
      (fun k => by
        rw [how, List.mem_eraseIdx_iff_getElem?]
        by_cases hik : i = k
        · subst hik
          simp only [if_true, reduceCtorEq, iff_false]
          rintro ⟨m, hm1, hm2⟩
          have hlt : m < held.length := (List.getElem?_eq_some_iff.1 hm2).1
          exact hm1 ((List.getElem?_inj hlt hn).1 (by rw [hm2, hj]))
        · rw [if_neg hik, ← hm, List.mem_iff_getElem?]
          constructor
          · rintro ⟨m, _, hm2⟩; exact ⟨m, hm2⟩
          · rintro ⟨m, hm2⟩
            refine ⟨m, ?_, hm2⟩
            rintro rfl
            rw [hj] at hm2
            exact hik (Option.some.inj hm2)) rest (cs1 ++ [.release j]) (by simpa using hcs)
      (by rw [hev]; exact hr.append (.gave hj (.nil _)))
    refine ⟨h ++ [⟨t, .gave i⟩], l', by rw [e', hev], fun k hk => ?_, hl', .inr ⟨_, rfl, .gave hh t i hoi⟩⟩
    rw [e2 c k hk, how]
    by_cases hik : i = k
    · subst hik; simp [AtomicBitset.Op.after, AtomicBitset.Op.effect]
    · simp only [AtomicBitset.Op.after, AtomicBitset.Op.effect, if_neg (Ne.symm hik), if_neg hik]
      exact hc k hk

/-! ## Schedules -/

/-- The invariant of the system. -/
structure Inv (N tries : Nat) (progs : List (List Cmd)) (s : Sys w (List Nat × List Res)) (h : List Ev) (ls : List Loc) : Prop where
  history : History N tries h
  cell : CellOk N h s.cell
  tids : ∀ e, e ∈ h → e.tid < progs.length
  len : ls.length = progs.length
  threads : s.threads = ls.map (Loc.prog N tries)
  locs : ∀ (t : Nat) cs (l : Loc), progs[t]? = some cs → ls[t]? = some l → l.Ok N tries t h cs

theorem run_ok (hw : StdWidth w) (hN : 0 < N) (hNw : N ≤ w) (ht : 0 < tries) {progs : List (List Cmd)} :
    ∀ (sched : List Nat) {s s' : Sys w (List Nat × List Res)} {h ls}, Inv N tries progs s h ls → s.run sched = some s' →
    ∃ h' ls', Inv N tries progs s' h' ls' := by
  intro sched
  induction sched with
  | nil => intro s s' h ls hi hr; cases hr; exact ⟨h, ls, hi⟩
  | cons t sched ih =>
    intro s s' h ls hi hr
    simp only [Sys.run] at hr
    cases hst : s.step t with
    | none => rw [hst] at hr; cases hr
    | some s1 =>
      rw [hst] at hr
      refine (?_ : ∃ h1 ls1, Inv N tries progs s1 h1 ls1).elim fun h1 ⟨ls1, hi1⟩ => ih hi1 hr
      unfold Sys.step at hst
      split at hst
      · rename_i f k hth
        rw [hi.threads, List.getElem?_map, Option.map_eq_some_iff] at hth
        obtain ⟨l, hlt, hlp⟩ := hth
        have htl : t < ls.length := (List.getElem?_eq_some_iff.1 hlt).1
        have htp : t < progs.length := by rw [← hi.len]; exact htl
        have hl := hi.locs t progs[t] l (List.getElem?_eq_getElem htp) hlt
        rcases step_ok hw hN hNw ht hi.history hi.cell hl with hd | ⟨f', k', ep, h', l', ek, hc', hl', hh'⟩
        · rw [Loc.prog, hd] at hlp; cases hlp
        · rw [hlp] at ep
          cases ep
          cases hst
          refine ⟨h', ls.set t l', ?_, hc', ?_, by simp [hi.len], ?_, ?_⟩
          · rcases hh' with rfl | ⟨r, _, hh'⟩
            · exact hi.history
            · exact hh'
          · rcases hh' with rfl | ⟨r, rfl, hh'⟩
            · exact hi.tids
            · intro e he
              rcases List.mem_append.1 he with he | he
              · exact hi.tids e he
              · rw [List.mem_singleton] at he; subst he; exact htp
          · simp only [hi.threads, ek, List.map_set]
          · intro u cs m hu hm
            by_cases hut : t = u
            · subst hut
              rw [List.getElem?_set_self htl] at hm
              cases hm
              rw [List.getElem?_eq_getElem htp] at hu
              cases hu
              exact hl'
            · rw [List.getElem?_set_ne hut] at hm
              have := hi.locs u cs m hu hm
              rcases hh' with rfl | ⟨r, rfl, hh'⟩
              · exact this
              · exact other_ok hut hh' this
      · cases hst

theorem start_ok (ht : 0 < tries) (progs : List (List Cmd)) {c0 : BitVec w} (hc : ∀ i, i < N → c0.getLsbD i = false) :
    ∃ ls, Inv N tries progs ⟨c0, threads N tries progs⟩ [] ls := by
  have key : ∀ cs : List Cmd, ∃ l : Loc, l.prog (w := w) N tries = thread N tries cs [] [] ∧ ∀ t, l.Ok N tries t [] cs := by
    intro cs
    obtain ⟨l, e, hl⟩ := next_ok (w := w) (N := N) (tries := tries) ht (t := 0) (h := []) (held := []) (cs := cs) (by simp)
      (fun i => by simp [owner]) cs [] rfl (.nil [])
    refine ⟨l, e, fun t => ⟨hl.log, hl.nodup, fun i => by rw [hl.mem]; simp [owner], ?_⟩⟩
    obtain ⟨cs1, a, b⟩ := hl.phase
    refine ⟨cs1, a, ?_⟩
    cases hp : l.phase <;> rw [hp] at b <;> exact b
  choose f hf1 hf2 using key
  refine ⟨progs.map f, .nil, fun i hi => by rw [hc i hi]; rfl, by simp, by simp, ?_, ?_⟩
  · simp [threads, hf1]
  · intro t cs l hcs hl
    rw [List.getElem?_map, hcs] at hl
    cases hl
    exact hf2 cs t

/-- For every number of threads with any commands, and every schedule of their steps: there is a history of what the calls have given, in
which no identifier is acquired that a thread holds, a thread releases only what it holds, `full` is told only when all identifiers are held,
and `busy` only to a thread that has been overtaken as often as it tried.  The bitset is what is held.  Each thread has the results of the
history for a prefix of its commands, holds what it has acquired and not released, and is finished or able to go on. -/
theorem C148_shared_identifiers (hw : StdWidth w) (hN : 0 < N) (hNw : N ≤ w) (ht : 0 < tries) (progs : List (List Cmd)) {c0 : BitVec w}
    (hc : ∀ i, i < N → c0.getLsbD i = false) (sched : List Nat) {s : Sys w (List Nat × List Res)}
    (hr : (⟨c0, threads N tries progs⟩ : Sys w _).run sched = some s) :
    ∃ h, History N tries h ∧ (∀ i, i < N → s.cell.getLsbD i = (owner h i).isSome) ∧ (∀ e, e ∈ h → e.tid < progs.length) ∧
      ∀ t cs, progs[t]? = some cs → ∃ cs1 rest held, cs = cs1 ++ rest ∧ Replies [] cs1 (evs t h) held ∧ held.Nodup ∧
        (∀ i, i ∈ held ↔ owner h i = some t) ∧
        (rest = [] → s.threads[t]? = some (.ret (held, evs t h))) ∧ (rest ≠ [] → (s.step t).isSome = true) := by
  obtain ⟨ls, h0⟩ := start_ok ht progs hc
  obtain ⟨h, ls, hi⟩ := run_ok hw hN hNw ht sched h0 hr
  refine ⟨h, hi.history, hi.cell, hi.tids, fun t cs hcs => ?_⟩
  have htp : t < progs.length := (List.getElem?_eq_some_iff.1 hcs).1
  have htl : t < ls.length := by rw [hi.len]; exact htp
  obtain ⟨l, hlt⟩ : ∃ l, ls[t]? = some l := ⟨_, List.getElem?_eq_getElem htl⟩
  have hl := hi.locs t cs l hcs hlt
  have hth : s.threads[t]? = some (l.prog N tries) := by rw [hi.threads, List.getElem?_map, hlt]; rfl
  obtain ⟨cs1, a, b⟩ := hl.phase
  have hgo : l.phase ≠ .done → (s.step t).isSome = true := by
    intro hne
    rcases step_ok hw hN hNw ht hi.history hi.cell hl with hd | ⟨f, k, ep, _⟩
    · exact absurd hd hne
    · rw [Sys.step, hth, ep]; rfl
  cases hp : l.phase with
  | done =>
    rw [hp] at b
    refine ⟨cs1, [], l.held, by rw [List.append_nil]; exact b, a, hl.nodup, hl.mem, fun _ => ?_, fun hne => absurd rfl hne⟩
    rw [hth, Loc.prog, hp]
    simp only [hl.log]
  | load k =>
    rw [hp] at b
    exact ⟨cs1, _, l.held, b.1, a, hl.nodup, hl.mem, nofun, fun _ => hgo (by rw [hp]; nofun)⟩
  | take i k =>
    rw [hp] at b
    exact ⟨cs1, _, l.held, b.1, a, hl.nodup, hl.mem, nofun, fun _ => hgo (by rw [hp]; nofun)⟩
  | free j i =>
    rw [hp] at b
    exact ⟨cs1, _, l.held, b.1, a, hl.nodup, hl.mem, nofun, fun _ => hgo (by rw [hp]; nofun)⟩

/-- The same for every execution under whatever memory orders the calls are given. -/
theorem C148_any_memory_order (hw : StdWidth w) (hN : 0 < N) (hNw : N ≤ w) (ht : 0 < tries) (progs : List (List Cmd)) {c0 : BitVec w}
    (hc : ∀ i, i < N → c0.getLsbD i = false) {m : Nat} {val : Nat → BitVec w} {accs : List (List Acc)}
    {ends : List (Prog w (List Nat × List Res))} (hx : Execution (threads N tries progs) c0 m val accs ends) :
    ∃ h, History N tries h ∧ (∀ i, i < N → (val m).getLsbD i = (owner h i).isSome) ∧ (∀ e, e ∈ h → e.tid < progs.length) ∧
      ∀ t cs, progs[t]? = some cs → ∃ cs1 rest held, cs = cs1 ++ rest ∧ Replies [] cs1 (evs t h) held ∧ held.Nodup ∧
        (∀ i, i ∈ held ↔ owner h i = some t) ∧
        (rest = [] → ends[t]? = some (.ret (held, evs t h))) ∧ (rest ≠ [] → ∃ f k, ends[t]? = some (.atomically f k)) := by
  obtain ⟨sched, _, hr⟩ := Execution.scheduled _ (Nat.le_refl _) hx
  obtain ⟨h, h1, h2, h3, h4⟩ := C148_shared_identifiers hw hN hNw ht progs hc sched hr
  refine ⟨h, h1, h2, h3, fun t cs hcs => ?_⟩
  obtain ⟨cs1, rest, held, a, b, c, d, e, f⟩ := h4 t cs hcs
  refine ⟨cs1, rest, held, a, b, c, d, e, fun hne => ?_⟩
  have := f hne
  simp only [Sys.step] at this
  split at this
  · rename_i f k hth; exact ⟨f, k, hth⟩
  · cases this

/-- In particular two threads that have finished do not hold the same identifier, and when all have finished what they hold is what is set. -/
theorem C148_exclusive (hw : StdWidth w) (hN : 0 < N) (hNw : N ≤ w) (ht : 0 < tries) (progs : List (List Cmd)) {c0 : BitVec w}
    (hc : ∀ i, i < N → c0.getLsbD i = false) {m : Nat} {val : Nat → BitVec w} {accs : List (List Acc)}
    {ends : List (Prog w (List Nat × List Res))} (hx : Execution (threads N tries progs) c0 m val accs ends) :
    (∀ (t u : Nat) ht lt hu lu i, ends[t]? = some (.ret (ht, lt)) → ends[u]? = some (.ret (hu, lu)) → i ∈ ht → i ∈ hu → t = u) ∧
    ((∀ p, p ∈ ends → ∃ r, p = .ret r) → ∀ i, i < N → ((val m).getLsbD i = true ↔ ∃ hl, .ret hl ∈ ends ∧ i ∈ hl.1)) := by
  obtain ⟨h, h1, h2, h3, h4⟩ := C148_any_memory_order hw hN hNw ht progs hc hx
  have hlen : ends.length = progs.length := by rw [hx.threads']; simp [threads]
  have key : ∀ (t : Nat) hl, ends[t]? = some (.ret hl) → ∀ i, i ∈ hl.1 ↔ owner h i = some t := by
    intro t hl he i
    have htp : t < progs.length := by rw [← hlen]; exact (List.getElem?_eq_some_iff.1 he).1
    obtain ⟨cs1, rest, held, _, _, _, d, e, f⟩ := h4 t _ (List.getElem?_eq_getElem htp)
    cases rest with
    | nil =>
      have := e rfl
      rw [he] at this
      cases this
      exact d i
    | cons x xs =>
      obtain ⟨f, k, hf⟩ := f nofun
      rw [he] at hf
      cases hf
  refine ⟨fun t u ht lt hu lu i e1 e2 m1 m2 => ?_, fun hall i hi => ?_⟩
  · have a := (key t _ e1 i).1 m1
    have b := (key u _ e2 i).1 m2
    rw [a] at b
    exact Option.some.inj b
  · rw [h2 i hi]
    constructor
    · intro ho
      cases hx : owner h i with
      | none => rw [hx] at ho; cases ho
      | some t =>
        have htp : t < ends.length := by
          rw [hlen]
          exact owner_tid h3 hx
        obtain ⟨r, hr⟩ := hall _ (List.getElem_mem htp)
        exact ⟨r, hr ▸ List.getElem_mem htp, (key t r (by rw [List.getElem?_eq_getElem htp, hr]) i).2 hx⟩
    · rintro ⟨hl, hin, hi⟩
      obtain ⟨t, htl, ht⟩ := List.mem_iff_getElem.1 hin
      rw [(key t hl (by rw [List.getElem?_eq_getElem htl, ht]) i).1 hi]
      rfl

/-! ## Cases -/

/-- What a thread holds and has got at the end of a schedule. -/
def endOf (o : Option (Sys w (List Nat × List Res))) (t : Nat) : Option (List Nat × List Res) :=
  match o with
  | some s =>
    match s.threads[t]? with
    | some (.ret r) => some r
    | _ => none
  | none => none

/-- Two threads see the same identifier free, one gets it; the other with one try is told `busy`, with two tries gets the next. -/
example : let o := (⟨0xF0#8, threads 2 1 [[.acquire], [.acquire]]⟩ : Sys 8 _).run [0, 1, 0, 1]
    endOf o 0 = some ([0], [.got 0]) ∧ endOf o 1 = some ([], [.busy]) := by decide +kernel

example : let o := (⟨0xF0#8, threads 2 2 [[.acquire], [.acquire, .acquire, .release 0]]⟩ : Sys 8 _).run [0, 1, 0, 1, 1, 1, 1, 1]
    endOf o 0 = some ([0], [.got 0]) ∧ endOf o 1 = some ([], [.got 1, .full, .gave 1]) := by decide +kernel

end Verif.Shared
