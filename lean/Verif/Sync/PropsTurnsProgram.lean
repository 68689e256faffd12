import Verif.Sync.PropsTurns

/-!
# Programs with locks of tickets (C155)

The theorems about the programs of `Verif.Sync.Turns` (/repo/include/stdx/atomic.hpp).
-/

namespace Verif.Sync

open Verif.Conc Verif.BitOps

variable {κ γ δ : Type} {D : Decls κ γ} [DecidableEq κ] [DecidableEq γ]

/-! ## Lemmas -/

theorem get_snoc {α : Type} {l : List α} {x e : α} {n : Nat} (h : (l ++ [x])[n]? = some e) :
    l[n]? = some e ∧ n < l.length ∨ n = l.length ∧ e = x := by
  by_cases hn : n < l.length
  · rw [List.getElem?_append_left hn] at h
    exact .inl ⟨h, hn⟩
  · rw [List.getElem?_append_right (by omega)] at h
    match hk : n - l.length, h with
    | 0, h => cases h; exact .inr ⟨by omega, rfl⟩
    | _ + 1, h => cases h

theorem get_old {α : Type} {l : List α} {x e : α} {n : Nat} (h : l[n]? = some e) : (l ++ [x])[n]? = some e := by
  rw [List.getElem?_append_left (List.getElem?_eq_some_iff.1 h).1, h]

theorem turn_snoc {a b : γ} {l : List (Event D δ)} {x : Event D δ} {y n : Nat} (hy : y ≤ l.length) (h : TurnBy [l] a b 0 y n) :
    TurnBy [l ++ [x]] a b 0 y n := by
  obtain ⟨r, v, k, mo, u, acc, h1, h2, h3, h4, h5, h6, h7, h8, h9⟩ := h
  refine ⟨r, v, k, mo, u, acc, h1, h2, get_old h3, h4, h5, get_old h6, h7, h8, fun z q hz1 hz2 hq => ?_⟩
  rcases get_snoc (l := l) hq with ⟨hq, _⟩ | ⟨hz, _⟩
  · exact h9 z q hz1 hz2 hq
  · omega

theorem turn_more {a b : γ} {l : List (Event D δ)} {x : Event D δ} {n : Nat} (h : TurnBy [l] a b 0 l.length n)
    (hx : ∀ q, x = .num b q → q.call.1 = .load) : TurnBy [l ++ [x]] a b 0 (l ++ [x]).length n := by
  obtain ⟨r, v, k, mo, u, acc, h1, h2, h3, h4, h5, h6, h7, h8, h9⟩ := h
  refine ⟨r, v, k, mo, u, acc, h1, by rw [List.length_append]; omega, get_old h3, h4, h5, get_old h6, h7, h8, fun z q hz1 hz2 hq => ?_⟩
  rcases get_snoc (l := l) hq with ⟨hq, hz⟩ | ⟨_, hx'⟩
  · exact h9 z q hz1 hz hq
  · exact hx q hx'.symm

/-- What holds where a thread is. -/
def AtStage (a b : γ) (l : List (Event D δ)) : Stage → Prop
  | .idle => ∀ (n : Nat) r, l[n]? = some (.num a r) → IsTake r.call → ∃ (z : Nat) (q : _), n < z ∧ l[z]? = some (.num b q) ∧ q.call.1 ≠ .load
  | .waiting v => ∃ (n : Nat) (r : _) (v' : _), l[n]? = some (.num a r) ∧ IsTake r.call ∧ r.res = some v' ∧ v'.toNat = v ∧
      ∀ (y : Nat) q, n < y → l[y]? = some (.num b q) → q.call.1 = .load
  | .inside v => ∃ (n : Nat) (r : _) (v' : _), l[n]? = some (.num a r) ∧ r.res = some v' ∧ v'.toNat = v ∧ TurnBy [l] a b 0 l.length n

theorem runs_use {w : Nat} {ord : MOrd → Prop} {a b : γ} {P : δ → Prop} (hab : a ≠ b) {l : List (Event D δ)} {s : Stage}
    (h : Runs w ord a b P l s) : TurnUse w ord [l] a b ∧
      (∀ (x : Nat) d m, P d → l[x]? = some (.plain d m) → ∃ n, TurnBy [l] a b 0 x n) ∧ AtStage a b l s := by
  have zero : ∀ {l : List (Event D δ)} {t n e}, eventAt [l] t n = some e → t = 0 ∧ l[n]? = some e := by
    intro l t n e h
    match t with
    | 0 => exact ⟨rfl, h⟩
    | _ + 1 => simp [eventAt] at h
  induction h with
  | start =>
    refine ⟨⟨fun t n r h => ?_, fun t n r h => ?_⟩, fun x d m _ h => ?_, fun n r h => ?_⟩
    · cases (zero h).2
    · cases (zero h).2
    · cases h
    · cases h
  | step l e s s' h he ih =>
    obtain ⟨⟨hT, hS⟩, hP, hA⟩ := ih
    -- what has been done is as before
    have take : (∀ r, e = .num a r → r.call.1 = .load ∨ s = .idle ∧ IsTake r.call ∧ ord (aorder D.dflt r.call.1 r.call.2)) →
        ∀ t n r, eventAt [l ++ [e]] t n = some (.num a r) → r.call.1 = .load ∨ IsTake r.call ∧ ord (aorder D.dflt r.call.1 r.call.2) ∧
          ∀ n' r', n' < n → eventAt [l ++ [e]] t n' = some (.num a r') → IsTake r'.call →
            ∃ z q, n' < z ∧ z < n ∧ eventAt [l ++ [e]] t z = some (.num b q) ∧ q.call.1 ≠ .load := by
      intro hnew t n r hr
      obtain ⟨rfl, hr⟩ := zero hr
      rcases get_snoc hr with ⟨hr, hn⟩ | ⟨rfl, hre⟩
      · rcases hT 0 n r hr with h | ⟨h1, h2, h3⟩
        · exact .inl h
        · refine .inr ⟨h1, h2, fun n' r' hn' hr' hk => ?_⟩
          rcases get_snoc (l := l) hr' with ⟨hr', _⟩ | ⟨h, _⟩
          · obtain ⟨z, q, hz1, hz2, hz, hne⟩ := h3 n' r' hn' hr' hk
            exact ⟨z, q, hz1, hz2, get_old hz, hne⟩
          · omega
      · rcases hnew r hre.symm with h | ⟨rfl, h1, h2⟩
        · exact .inl h
        · refine .inr ⟨h1, h2, fun n' r' hn' hr' hk => ?_⟩
          rcases get_snoc (l := l) hr' with ⟨hr', _⟩ | ⟨h, _⟩
          · obtain ⟨z, q, hz1, hz, hne⟩ := hA n' r' hr' hk
            exact ⟨z, q, hz1, (List.getElem?_eq_some_iff.1 hz).1, get_old hz, hne⟩
          · omega
    have serve : (∀ q, e = .num b q → q.call.1 = .load ∨ ∃ v u, s = .inside v ∧ u.toNat = (v + 1) % 2 ^ w ∧
          (q.call.1 = .store u ∨ q.call.1 = .assign u) ∧ Releasing (aorder D.dflt q.call.1 q.call.2)) →
        ∀ t x q, eventAt [l ++ [e]] t x = some (.num b q) → q.call.1 = .load ∨
          ∃ n r v u, TurnBy [l ++ [e]] a b t x n ∧ eventAt [l ++ [e]] t n = some (.num a r) ∧ r.res = some v ∧
            u.toNat = (v.toNat + 1) % 2 ^ w ∧ (q.call.1 = .store u ∨ q.call.1 = .assign u) ∧ Releasing (aorder D.dflt q.call.1 q.call.2) := by
      intro hnew t x q hq
      obtain ⟨rfl, hq⟩ := zero hq
      rcases get_snoc hq with ⟨hq, hx⟩ | ⟨rfl, hqe⟩
      · rcases hS 0 x q hq with h | ⟨n, r, v, u, h1, h2, h3, h4, h5, h6⟩
        · exact .inl h
        · exact .inr ⟨n, r, v, u, turn_snoc (by omega) h1, get_old h2, h3, h4, h5, h6⟩
      · rcases hnew q hqe.symm with h | ⟨v, u, rfl, h4, h5, h6⟩
        · exact .inl h
        · obtain ⟨n, r, v', h1, h2, rfl, h3⟩ := hA
          exact .inr ⟨n, r, v', u, turn_snoc (Nat.le_refl _) h3, get_old h1, h2, h4, h5, h6⟩
    have plain : (∀ d m, P d → e = .plain d m → ∃ v, s = .inside v) →
        ∀ (x : Nat) d m, P d → (l ++ [e])[x]? = some (.plain d m) → ∃ n, TurnBy [l ++ [e]] a b 0 x n := by
      intro hnew x d m hd hx
      rcases get_snoc hx with ⟨hx, hl⟩ | ⟨rfl, hxe⟩
      · obtain ⟨n, hn⟩ := hP x d m hd hx
        exact ⟨n, turn_snoc (by omega) hn⟩
      · obtain ⟨v, rfl⟩ := hnew d m hd hxe.symm
        obtain ⟨n, _, _, _, _, _, h3⟩ := hA
        exact ⟨n, turn_snoc (Nat.le_refl _) h3⟩
    cases he with
    | other _ _ h =>
      obtain ⟨f1, f2, f3⟩ := h
      refine ⟨⟨take fun r hr => .inl (f1 r hr), serve fun q hq => .inl (f2 q hq)⟩, plain fun d m hd h => absurd h (f3 d m hd), ?_⟩
      cases s with
      | idle =>
        intro n r hr hk
        rcases get_snoc hr with ⟨hr, _⟩ | ⟨_, hr⟩
        · obtain ⟨z, q, h1, h2, h3⟩ := hA n r hr hk
          exact ⟨z, q, h1, get_old h2, h3⟩
        · have := f1 r hr.symm
          rcases hk with hk | hk <;> rw [hk] at this <;> cases this
      | waiting v =>
        obtain ⟨n, r, v', h1, h2, h3, h4, h5⟩ := hA
        refine ⟨n, r, v', get_old h1, h2, h3, h4, fun y q hy hq => ?_⟩
        rcases get_snoc hq with ⟨hq, _⟩ | ⟨_, hq⟩
        · exact h5 y q hy hq
        · exact f2 q hq.symm
      | inside v =>
        obtain ⟨n, r, v', h1, h2, h3, h4⟩ := hA
        exact ⟨n, r, v', get_old h1, h2, h3, turn_more h4 f2⟩
    | take r v hk ho hv =>
      refine ⟨⟨take fun r' hr' => ?_, serve fun q hq => ?_⟩, plain nofun, ?_⟩
      · cases hr'
        exact .inr ⟨rfl, hk, ho⟩
      · exact absurd (by cases hq; rfl) hab
      · refine ⟨l.length, r, v, ?_, hk, hv, rfl, fun y q hy hq => ?_⟩
        · rw [List.getElem?_append_right (Nat.le_refl _), Nat.sub_self]; rfl
        · have := (List.getElem?_eq_some_iff.1 hq).1
          rw [List.length_append, List.length_singleton] at this
          omega
    | enter mo u acc ho =>
      refine ⟨⟨take fun r hr => ?_, serve fun q hq => ?_⟩, plain nofun, ?_⟩
      · exact absurd (by cases hr; rfl) hab
      · cases hq
        exact .inl rfl
      · obtain ⟨n, r, v', h1, h2, h3, h4, h5⟩ := hA
        have hn := (List.getElem?_eq_some_iff.1 h1).1
        refine ⟨n, r, v', get_old h1, h3, h4, r, v', l.length, mo, u, acc, hn, by rw [List.length_append, List.length_singleton]; omega,
          get_old h1, h2, h3, ?_, h4.symm, ho, fun y q hy hy' hq => ?_⟩
        · show (l ++ _)[l.length]? = _
          rw [List.getElem?_append_right (Nat.le_refl _), Nat.sub_self]; rfl
        · rcases get_snoc (l := l) hq with ⟨hq, _⟩ | ⟨_, hq⟩
          · exact h5 y q hy hq
          · cases hq; rfl
    | access v d m =>
      refine ⟨⟨take nofun, serve nofun⟩, plain fun _ _ _ _ => ⟨v, rfl⟩, ?_⟩
      obtain ⟨n, r, v', h1, h2, h3, h4⟩ := hA
      exact ⟨n, r, v', get_old h1, h2, h3, turn_more h4 nofun⟩
    | leave v q u hq hu ho =>
      refine ⟨⟨take fun r hr => ?_, serve fun q' hq' => ?_⟩, plain nofun, ?_⟩
      · exact absurd (by cases hr; rfl) hab
      · cases hq'
        exact .inr ⟨v, u, rfl, hu, hq, ho⟩
      · intro n r hr hk
        rcases get_snoc hr with ⟨hr, hn⟩ | ⟨_, hr⟩
        · refine ⟨l.length, q, hn, ?_, by rcases hq with h | h <;> rw [h] <;> nofun⟩
          rw [List.getElem?_append_right (Nat.le_refl _), Nat.sub_self]; rfl
        · exact absurd (by cases hr; rfl) hab

theorem alone {threads : List (List (Event D δ))} {t n : Nat} {e : Event D δ} (h : eventAt threads t n = some e) :
    ∃ l ∈ threads, l[n]? = some e ∧ ∀ m, eventAt threads t m = l[m]? := by
  cases ht : threads[t]? with
  | none => simp [eventAt, ht] at h
  | some l =>
    have : ∀ m, eventAt threads t m = l[m]? := fun m => by simp [eventAt, ht]
    exact ⟨l, List.mem_of_getElem? ht, by rw [← this, h], this⟩

/-- A turn of a thread by itself is one of the program. -/
theorem turn_among {a b : γ} {threads : List (List (Event D δ))} {t x n : Nat} {l : List (Event D δ)} (hl : ∀ m, eventAt threads t m = l[m]?)
    (h : TurnBy [l] a b 0 x n) : TurnBy threads a b t x n := by
  obtain ⟨r, v, k, mo, u, acc, h1, h2, h3, h4, h5, h6, h7, h8, h9⟩ := h
  exact ⟨r, v, k, mo, u, acc, h1, h2, (hl n).trans h3, h4, h5, (hl k).trans h6, h7, h8,
    fun y q hy1 hy2 hq => h9 y q hy1 hy2 ((hl y).symm.trans hq)⟩

/-- What threads that follow the rules do is a use of the lock. -/
theorem program_use {w : Nat} {ord : MOrd → Prop} {a b : γ} {P : δ → Prop} (hab : a ≠ b) {threads : List (List (Event D δ))}
    (h : ∀ l ∈ threads, ∃ s, Runs w ord a b P l s) : TurnUse w ord threads a b ∧
      ∀ d, P d → ∀ t x m, eventAt threads t x = some (.plain d m) → ∃ n, TurnBy threads a b t x n := by
  refine ⟨⟨fun t n r hr => ?_, fun t x q hq => ?_⟩, fun d hd t x m hx => ?_⟩
  · obtain ⟨l, hl, hn, he⟩ := alone hr
    obtain ⟨s, hs⟩ := h l hl
    rcases (runs_use hab hs).1.take 0 n r hn with h | ⟨h1, h2, h3⟩
    · exact .inl h
    · refine .inr ⟨h1, h2, fun n' r' hn' hr' hk => ?_⟩
      obtain ⟨z, q, hz1, hz2, hz, hne⟩ := h3 n' r' hn' ((he n').symm.trans hr') hk
      exact ⟨z, q, hz1, hz2, (he z).trans hz, hne⟩
  · obtain ⟨l, hl, hn, he⟩ := alone hq
    obtain ⟨s, hs⟩ := h l hl
    rcases (runs_use hab hs).1.serve 0 x q hn with h | ⟨n, r, v, u, h1, h2, h3, h4, h5, h6⟩
    · exact .inl h
    · exact .inr ⟨n, r, v, u, turn_among he h1, (he n).trans h2, h3, h4, h5, h6⟩
  · obtain ⟨l, hl, hn, he⟩ := alone hx
    obtain ⟨s, hs⟩ := h l hl
    obtain ⟨n, hn⟩ := (runs_use hab hs).2.1 x d m hd hn
    exact ⟨n, turn_among he hn⟩

/-! ## Theorems -/

/-- **C155, programs.** Threads, not more than the atomics have values, that each run: take a ticket, wait for it, use what is protected, end the turn, and so on
without end: there is no data race on what is protected, however often the tickets wrap around and whatever else the threads do. -/
theorem C155_program {w : Nat} {a b : γ} {P : δ → Prop} (hab : a ≠ b) (hD : D.Ok) {c0 : (k : κ) → BitVec (D.w k)}
    {v0 : (a : γ) → BitVec (D.C a).w} {threads : List (List (Event D δ))} (hx : Histories c0 v0 threads) (hc : Consistent threads)
    (hrun : ∀ l ∈ threads, ∃ s, Runs w Both a b P l s) (ha : (D.C a).w = w) (ha0 : v0 a = 0#_) (hb0 : v0 b = 0#_)
    (hM : threads.length ≤ 2 ^ w) (d : δ) (hd : P d) : ¬ Race threads d :=
  let ⟨hu, hp⟩ := program_use hab hrun
  C155_ticket_lock hD hx hc hu ha ha0 hb0 hM d (hp d hd)

/-! ## Examples -/

theorem enter_run {ord : MOrd → Prop} {v p : Nat} (h : v = (BitVec.ofNat 8 p).toNat) :
    Step (D := desk) (δ := Nat) 8 ord false true (· = 3) (.waiting v) (.num true (loadAt p)) (.inside v) := by
  subst h
  exact .enter (D := desk) (b := true) (some .acquire) (BitVec.ofNat 8 p) (.read p) (.inr ⟨_, rfl, .inl rfl⟩)

theorem rounds_run {ord : MOrd → Prop} {mo : MOrd} (ho : ord mo) (N : Nat) :
    Runs 8 ord false true (· = 3) ((List.range N).flatMap (round mo)) .idle := by
  induction N with
  | zero => exact .start
  | succ N ih =>
    have h1 := Runs.step _ _ _ _ ih (.take (a := false) (b := true) (takeBy mo N) (BitVec.ofNat 8 N) (.inl rfl) ho rfl)
    have h2 := Runs.step _ _ _ _ h1 (enter_run (p := N) rfl)
    have h3 := Runs.step _ _ _ _ h2 (.access _ 3 true)
    have h4 := Runs.step _ _ _ _ h3 (.leave _ (storeAt N) (BitVec.ofNat 8 (N + 1)) (.inl rfl) (by
      show (BitVec.ofNat 8 (N + 1)).toNat = ((BitVec.ofNat 8 N).toNat + 1) % 2 ^ 8
      rw [BitVec.toNat_ofNat, BitVec.toNat_ofNat, Nat.mod_add_mod]) (.inl rfl))
    rw [List.range_succ, List.flatMap_append]
    simpa only [List.append_assoc, List.singleton_append, List.cons_append, List.nil_append, List.flatMap_cons, List.flatMap_nil,
      List.append_nil, round] using h4

theorem late_run {ord : MOrd → Prop} {mo : MOrd} (ho : ord mo) {p : Nat} (hp : p = 0 ∨ p = 256) :
    ∀ l ∈ late mo p, ∃ s, Runs 8 ord false true (· = 3) l s := by
  intro l hl
  rcases List.mem_cons.1 hl with rfl | hl
  · exact ⟨_, rounds_run ho 256⟩
  · rw [List.mem_singleton] at hl
    subst hl
    have h1 := Runs.step (D := desk) (w := 8) (ord := ord) (P := (· = 3)) _ _ _ _ .start
      (.take (a := false) (b := true) (takeBy mo 256) (BitVec.ofNat 8 256) (.inl rfl) ho rfl)
    have e : (BitVec.ofNat 8 256).toNat = (BitVec.ofNat 8 p).toNat := by rcases hp with rfl | rfl <;> rfl
    have h2 := Runs.step _ _ _ _ h1 (enter_run e)
    exact ⟨_, Runs.step _ _ _ _ h2 (.access _ 3 true)⟩

example : ¬ Race (late .acqRel 256) 3 :=
  C155_program (w := 8) (a := false) (b := true) (P := (· = 3)) (by decide) desk_ok (late_histories .acqRel (by decide)) (late_consistent (.inl rfl))
    (late_run (show Both .acqRel from ⟨.inr (.inl rfl), .inr (.inl rfl)⟩) (.inr rfl)) rfl rfl rfl (by decide) 3 rfl

/-- **C155, the order matters for programs too.** With tickets taken by `relaxed`, a program of two threads that does all the rest as it
should has a data race. -/
theorem C155_program_race : ∃ threads : List (List (Event desk Nat)), threads.length = 2 ∧
    Histories (fun _ => 0#8) (fun _ => 0#8) threads ∧ Consistent threads ∧
    (∀ l ∈ threads, ∃ s, Runs 8 (· = .relaxed) false true (· = 3) l s) ∧ Race threads 3 := by
  refine ⟨late .relaxed 0, rfl, late_histories .relaxed (by decide), late_consistent (.inr ⟨rfl, rfl⟩),
    late_run (ord := (· = .relaxed)) rfl (.inl rfl),
    0, 4 * 0 + 2, true, 1, 2, true, late_first .relaxed 0 (i := 0) (k := 2) (by decide) (by decide), rfl, .inl rfl, by decide,
    fun h => ?_, fun h => ?_⟩
  · rcases late_hb h with ⟨h, _⟩ | ⟨_, _, h⟩
    · cases h
    · simp at h
  · rcases late_hb h with ⟨h, _⟩ | ⟨h, _⟩ <;> cases h

end Verif.Sync
