import Verif.Ring.Program
import Verif.Ring.PropsRing

/-!
# Properties of the program of the ring (C154)
-/

namespace Verif.Ring

open Verif.Sync Verif.Conc
open Channel (Plain Before IsOp result)

variable {κ γ δ : Type} {D : Decls κ γ} [DecidableEq κ] [DecidableEq γ] {α : Type}

theorem only_one {l : List (Event D δ)} (n : Nat) : eventAt [l] 0 n = l[n]? := rfl

/-- What was asked is asked also with more events before. -/
theorem asked_later {l : List (Event D δ)} (b : List (Event D δ)) {mine other : γ} {n v : Nat} {ok : Nat → Nat → Prop}
    (h : Asked [l] mine other 0 n ok v) : Asked [b ++ l] mine other 0 (b.length + n) ok v := by
  obtain ⟨l0, mo0, v', acc0, l1, mo, u, acc, hl0, hl, e0, e1, ha, hv, hok, hs0, hs1⟩ := h
  have sh : ∀ k, eventAt [b ++ l] 0 (b.length + k) = eventAt [l] 0 k := fun k => by
    simp only [only_one]; rw [List.getElem?_append_right (by omega)]; congr 1; omega
  refine ⟨b.length + l0, mo0, v', acc0, b.length + l1, mo, u, acc, by omega, by omega, by rw [sh, e0], by rw [sh, e1], ha, hv, hok, ?_, ?_⟩
  · intro y q h1 h2 hq
    obtain ⟨y, rfl⟩ : ∃ k, y = b.length + k := ⟨y - b.length, by omega⟩
    exact hs0 y q (by omega) (by omega) (by rw [← sh, hq])
  · intro y q h1 h2 hq
    obtain ⟨y, rfl⟩ : ∃ k, y = b.length + k := ⟨y - b.length, by omega⟩
    exact hs1 y q (by omega) (by omega) (by rw [← sh, hq])

theorem same_later {l : List (Event D δ)} (b : List (Event D δ)) {mine : γ} {x y : Nat} :
    Same [b ++ l] mine 0 (b.length + x) (b.length + y) ↔ Same [l] mine 0 x y := by
  have sh : ∀ k, eventAt [b ++ l] 0 (b.length + k) = eventAt [l] 0 k := fun k => by
    simp only [only_one]; rw [List.getElem?_append_right (by omega)]; congr 1; omega
  constructor
  · intro h z q h1 h2 hq
    exact h (b.length + z) q (by omega) (by omega) (by rw [sh, hq])
  · intro h z q h1 h2 hq
    obtain ⟨z, rfl⟩ : ∃ k, z = b.length + k := ⟨z - b.length, by omega⟩
    exact h z q (by omega) (by omega) (by rw [← sh, hq])

/-- What calls do with the counters and the places. -/
structure Local (l : List (Event D δ)) (w N : Nat) (slot : Nat → δ) (mine other : γ) (ok : Nat → Nat → Prop) : Prop where
  call : ∀ (n : Nat) r, l[n]? = some (.num mine r) → CounterCall [l] w mine other 0 ok 0 n r
  loads : ∀ (n : Nat) r, l[n]? = some (.num other r) → r.call.1 = .load
  place : ∀ (n : Nat) i m, i < N → l[n]? = some (.plain (slot i) m) → m = true ∧ ∃ v, Asked [l] mine other 0 n ok v ∧ i = v % N
  used : ∀ (n : Nat) r, l[n]? = some (.num mine r) → r.call.1 ≠ .load → ∃ (x : Nat) (i : Nat) (m : Bool), x < n ∧ i < N ∧ l[x]? = some (.plain (slot i) m) ∧ Same [l] mine 0 x n
  once : ∀ (x y i j : Nat) (m m' : Bool), i < N → j < N → x < y → l[x]? = some (.plain (slot i) m) → l[y]? = some (.plain (slot j) m') → ¬ Same [l] mine 0 x y

/-- It is enough to look at the first call. -/
theorem local_append {b l : List (Event D δ)} {w N : Nat} {slot : Nat → δ} {mine other : γ} {ok : Nat → Nat → Prop}
    (hb : Local b w N slot mine other ok) (hl : Local l w N slot mine other ok)
    (hend : ∀ (x : Nat) i m, i < N → b[x]? = some (.plain (slot i) m) → ¬ Same [b] mine 0 x b.length) : Local (b ++ l) w N slot mine other ok := by
  have pre : ∀ k, k < b.length → (b ++ l)[k]? = b[k]? := fun k h => List.getElem?_append_left h
  have suf : ∀ k, (b ++ l)[b.length + k]? = l[k]? := fun k => by rw [List.getElem?_append_right (by omega)]; congr 1; omega
  have split : ∀ n e, (b ++ l)[n]? = some e → (n < b.length ∧ b[n]? = some e) ∨ ∃ k, n = b.length + k ∧ l[k]? = some e := by
    intro n e h
    by_cases hn : n < b.length
    · exact .inl ⟨hn, by rwa [← pre n hn]⟩
    · exact .inr ⟨n - b.length, by omega, by rwa [← suf, show b.length + (n - b.length) = n by omega]⟩
  have asked_pre : ∀ {n v}, n ≤ b.length → Asked [b] mine other 0 n ok v → Asked [b ++ l] mine other 0 n ok v := by
    rintro n v hn ⟨l0, mo0, v', acc0, l1, mo, u, acc, hl0, hl, e0, e1, ha, hv, hok, hs0, hs1⟩
    refine ⟨l0, mo0, v', acc0, l1, mo, u, acc, hl0, hl, ?_, ?_, ha, hv, hok, ?_, ?_⟩
    · rw [only_one, pre _ (by omega)]; exact e0
    · rw [only_one, pre _ (by omega)]; exact e1
    · intro y q h1 h2 hq
      rw [only_one, pre _ (by omega)] at hq
      exact hs0 y q h1 h2 hq
    · intro y q h1 h2 hq
      rw [only_one, pre _ (by omega)] at hq
      exact hs1 y q h1 h2 hq
  have same_pre : ∀ {x y}, y ≤ b.length → (Same [b ++ l] mine 0 x y ↔ Same [b] mine 0 x y) := by
    intro x y hy
    constructor
    · intro h z q h1 h2 hq
      exact h z q h1 h2 (by rw [only_one, pre _ (by omega)]; exact hq)
    · intro h z q h1 h2 hq
      rw [only_one, pre _ (by omega)] at hq
      exact h z q h1 h2 hq
  constructor
  · intro n r h
    rcases split n _ h with ⟨hn, h⟩ | ⟨k, rfl, hk⟩
    · exact (hb.call n r h).imp_right fun ⟨h0, v, u, ha, hr⟩ => ⟨h0, v, u, asked_pre (by omega) ha, hr⟩
    · exact (hl.call k r hk).imp_right fun ⟨h0, v, u, ha, hr⟩ => ⟨h0, v, u, asked_later b ha, hr⟩
  · intro n r h
    rcases split n _ h with ⟨hn, h⟩ | ⟨k, rfl, hk⟩
    · exact hb.loads n r h
    · exact hl.loads k r hk
  · intro n i m hi h
    rcases split n _ h with ⟨hn, h⟩ | ⟨k, rfl, hk⟩
    · obtain ⟨h1, v, h2, h3⟩ := hb.place n i m hi h
      exact ⟨h1, v, asked_pre (by omega) h2, h3⟩
    · obtain ⟨h1, v, h2, h3⟩ := hl.place k i m hi hk
      exact ⟨h1, v, asked_later b h2, h3⟩
  · intro n r h hne
    rcases split n _ h with ⟨hn, h⟩ | ⟨k, rfl, hk⟩
    · obtain ⟨x, i, m, hx, hi, he, hs⟩ := hb.used n r h hne
      exact ⟨x, i, m, hx, hi, by rw [pre _ (by omega), he], (same_pre (by omega)).mpr hs⟩
    · obtain ⟨x, i, m, hx, hi, he, hs⟩ := hl.used k r hk hne
      exact ⟨b.length + x, i, m, by omega, hi, by rw [suf, he], (same_later b).mpr hs⟩
  · intro x y i j m m' hi hj hxy hx hy hs
    rcases split x _ hx with ⟨hn, hx⟩ | ⟨k, rfl, hkx⟩
    · rcases split y _ hy with ⟨hn', hy⟩ | ⟨k', rfl, hky⟩
      · exact hb.once x y i j m m' hi hj hxy hx hy ((same_pre (by omega)).mp hs)
      · refine hend x i m hi hx ((same_pre (Nat.le_refl _)).mp fun z q h1 h2 hq => hs z q h1 (by omega) hq)
    · rcases split y _ hy with ⟨hn', hy⟩ | ⟨k', rfl, hky⟩
      · omega
      · exact hl.once k k' i j m m' hi hj (by omega) hkx hky ((same_later b).mp hs)

theorem local_harmless {b : List (Event D δ)} {w N : Nat} {slot : Nat → δ} {mine other : γ} {ok : Nat → Nat → Prop}
    (h : ∀ e ∈ b, Harmless N mine other slot e) : Local b w N slot mine other ok := by
  have at' : ∀ {n : Nat} {e}, b[n]? = some e → Harmless N mine other slot e := fun he => h _ (List.mem_of_getElem? he)
  refine ⟨fun n r hr => .inl ((at' hr).1 r rfl), fun n r hr => (at' hr).2.1 r rfl, fun n i m hi he => absurd rfl ((at' he).2.2 i m hi),
    fun n r hr hne => absurd ((at' hr).1 r rfl) hne, fun x y i j m m' hi _ _ he => absurd rfl ((at' he).2.2 i m hi)⟩

theorem local_calls {l : List (Event D δ)} {w N : Nat} {slot : Nat → δ} {mine other : γ} {ok : Nat → Nat → Prop} (hne : mine ≠ other)
    (hN : 0 < N) (hinj : ∀ i j, i < N → j < N → slot i = slot j → i = j) (h : Calls w N slot mine other ok l) :
    Local l w N slot mine other ok := by
  have load_mine : ∀ mo v acc, Harmless N mine other slot (Event.num mine ⟨(.load, mo), some v, acc⟩ : Event D δ) := by
    intro mo v acc
    refine ⟨fun r h => by cases h; rfl, fun r h => ?_, fun i m _ h => by cases h⟩
    injection h with h _
    exact absurd h hne
  have load_other : ∀ mo v acc, Harmless N mine other slot (Event.num other ⟨(.load, mo), some v, acc⟩ : Event D δ) := by
    intro mo v acc
    refine ⟨fun r h => ?_, fun r h => by cases h; rfl, fun i m _ h => by cases h⟩
    injection h with h _
    exact absurd h.symm hne
  have asked : ∀ {mo mo' v u acc acc'} (l' : List (Event D δ)) (k : Nat), k < 2 → (mo' = none ∨ ∃ o, mo' = some o ∧ Acquiring o) →
      ok v.toNat u.toNat →
      Asked [.num mine ⟨(.load, mo), some v, acc⟩ :: .num other ⟨(.load, mo'), some u, acc'⟩ :: .plain (slot (v.toNat % N)) true :: l']
        mine other 0 (2 + k) ok v.toNat := by
    intro mo mo' v u acc acc' l' k hk ha hok
    refine ⟨0, mo, v, acc, 1, mo', u, acc', by omega, by omega, rfl, rfl, ha, rfl, hok, ?_, ?_⟩ <;>
      intro y q h1 h2 hq <;> match y with
      | 0 => cases hq; rfl
      | 1 =>
        simp only [only_one, List.getElem?_cons_succ, List.getElem?_cons_zero, Option.some.injEq] at hq
        injection hq with hq _
        exact absurd hq.symm hne
      | 2 => cases hq
      | _ + 3 => omega
  induction h with
  | done => exact local_harmless (by simp)
  | besides e l he _ ih =>
    exact local_append (b := [e]) (local_harmless (by simpa using he)) ih fun x i m hi hx => by
      have := List.mem_of_getElem? hx
      rw [List.mem_singleton] at this
      exact absurd this.symm (he.2.2 i m hi)
  | refused mo mo' v u acc acc' l ha hok _ ih =>
    have hh : ∀ e ∈ ([.num mine ⟨(.load, mo), some v, acc⟩, .num other ⟨(.load, mo'), some u, acc'⟩] : List (Event D δ)),
        Harmless N mine other slot e := by
      intro e he
      simp only [List.mem_cons, List.not_mem_nil, or_false] at he
      rcases he with rfl | rfl
      · exact load_mine _ _ _
      · exact load_other _ _ _
    exact local_append (b := [_, _]) (local_harmless hh) ih fun x i m hi hx => absurd rfl ((hh _ (List.mem_of_getElem? hx)).2.2 i m hi)
  | unfinished mo mo' v u acc acc' ha hok =>
    refine ⟨?_, ?_, ?_, ?_, ?_⟩
    · intro n r h
      match n with
      | 0 => cases h; exact .inl rfl
      | 1 => simp only [List.getElem?_cons_succ, List.getElem?_cons_zero, Option.some.injEq] at h; injection h with h _; exact absurd h.symm hne
      | 2 => cases h
      | _ + 3 => cases h
    · intro n r h
      match n with
      | 0 => simp only [List.getElem?_cons_succ, List.getElem?_cons_zero, Option.some.injEq] at h; injection h with h _; exact absurd h hne
      | 1 => cases h; rfl
      | 2 => cases h
      | _ + 3 => cases h
    · intro n i m hi h
      match n with
      | 0 => cases h
      | 1 => cases h
      | 2 =>
        simp only [List.getElem?_cons_succ, List.getElem?_cons_zero, Option.some.injEq] at h
        injection h with h1 h2
        exact ⟨h2.symm, v.toNat, asked [] 0 (by omega) ha hok, (hinj _ _ (Nat.mod_lt _ hN) hi h1).symm⟩
      | _ + 3 => cases h
    · intro n r h hne'
      match n with
      | 0 => cases h; exact absurd rfl hne'
      | 1 => simp only [List.getElem?_cons_succ, List.getElem?_cons_zero, Option.some.injEq] at h; injection h with h _; exact absurd h.symm hne
      | 2 => cases h
      | _ + 3 => cases h
    · intro x y i j m m' hi hj hxy hx hy
      match y with
      | 0 => cases hy
      | 1 => cases hy
      | 2 => match x with
        | 0 => cases hx
        | 1 => cases hx
        | _ + 2 => omega
      | _ + 3 => cases hy
  | passed mo mo' v u acc acc' r x l ha hok hx hr hrel _ ih =>
    have hrl : r.call.1 ≠ .load := by rcases hr with h | h <;> rw [h] <;> nofun
    have hs : Same [[.num mine ⟨(.load, mo), some v, acc⟩, .num other ⟨(.load, mo'), some u, acc'⟩, .plain (slot (v.toNat % N)) true,
        .num mine r]] mine 0 2 3 := by
      intro z q h1 h2 hq
      have : z = 2 := by omega
      subst this
      cases hq
    refine local_append (b := [_, _, _, _]) ⟨?_, ?_, ?_, ?_, ?_⟩ ih ?_
    · intro n q h
      match n with
      | 0 => cases h; exact .inl rfl
      | 1 => simp only [List.getElem?_cons_succ, List.getElem?_cons_zero, Option.some.injEq] at h; injection h with h _; exact absurd h.symm hne
      | 2 => cases h
      | 3 => cases h; exact .inr ⟨rfl, v.toNat, x, asked [_] 1 (by omega) ha hok, hx, hr, hrel⟩
      | _ + 4 => cases h
    · intro n q h
      match n with
      | 0 => simp only [List.getElem?_cons_succ, List.getElem?_cons_zero, Option.some.injEq] at h; injection h with h _; exact absurd h hne
      | 1 => cases h; rfl
      | 2 => cases h
      | 3 => simp only [List.getElem?_cons_succ, List.getElem?_cons_zero, Option.some.injEq] at h; injection h with h _; exact absurd h hne
      | _ + 4 => cases h
    · intro n i m hi h
      match n with
      | 0 => cases h
      | 1 => cases h
      | 2 =>
        simp only [List.getElem?_cons_succ, List.getElem?_cons_zero, Option.some.injEq] at h
        injection h with h1 h2
        exact ⟨h2.symm, v.toNat, asked [_] 0 (by omega) ha hok, (hinj _ _ (Nat.mod_lt _ hN) hi h1).symm⟩
      | 3 => cases h
      | _ + 4 => cases h
    · intro n q h hne'
      match n with
      | 0 => cases h; exact absurd rfl hne'
      | 1 => simp only [List.getElem?_cons_succ, List.getElem?_cons_zero, Option.some.injEq] at h; injection h with h _; exact absurd h.symm hne
      | 2 => cases h
      | 3 => exact ⟨2, v.toNat % N, true, by omega, Nat.mod_lt _ hN, rfl, hs⟩
      | _ + 4 => cases h
    · intro x y i j m m' hi hj hxy hx hy
      match y with
      | 0 => cases hy
      | 1 => cases hy
      | 2 => match x with
        | 0 => cases hx
        | 1 => cases hx
        | _ + 2 => omega
      | 3 => cases hy
      | _ + 4 => cases hy
    · intro y i m hi hy hsame
      match y with
      | 0 => cases hy
      | 1 => cases hy
      | 2 => exact hrl (hsame 3 r (by omega) (by simp) rfl)
      | 3 => cases hy
      | _ + 4 => cases hy

theorem event_thread {threads : List (List (Event D δ))} (t n : Nat) : eventAt [threads.getD t []] 0 n = eventAt threads t n := by
  rw [only_one, event_getD]

theorem asked_thread {threads : List (List (Event D δ))} {t : Nat} {mine other : γ} {n v : Nat} {ok : Nat → Nat → Prop}
    (h : Asked [threads.getD t []] mine other 0 n ok v) : Asked threads mine other t n ok v := by
  unfold Asked at h ⊢
  simpa only [event_thread] using h

theorem same_thread {threads : List (List (Event D δ))} {t x y : Nat} {mine : γ} :
    Same [threads.getD t []] mine 0 x y ↔ Same threads mine t x y := by
  unfold Same
  simp only [event_thread]

/-- **C154, the program.** Calls of `send` by one thread and of `receive` by another one use the counters and the places as the theorems
above require it. -/
theorem C154_program {threads : List (List (Event D δ))} {w N : Nat} {tail head : γ} {P C : Nat} {slot : Nat → δ} (hne : tail ≠ head)
    (hN : 0 < N) (hinj : ∀ i j, i < N → j < N → slot i = slot j → i = j) (h : Program threads w N tail head P C slot) :
    Use threads w N tail head P C slot ∧ Once threads N tail P slot ∧ Once threads N head C slot := by
  have lp := local_calls hne hN hinj h.sender
  have lc := local_calls hne.symm hN hinj h.receiver
  have once : ∀ {mine other : γ} {t : Nat} {ok}, Local (threads.getD t []) w N slot mine other ok → Once threads N mine t slot := by
    intro mine other t ok hl
    refine ⟨fun n r hr hne => ?_, fun x y i j m m' hi hj hxy hx hy hs => ?_, fun x i m hi hx => ?_⟩
    · obtain ⟨x, i, m, hx, hi, he, hs⟩ := hl.used n r (by rw [← event_getD, hr]) hne
      exact ⟨x, i, m, hx, hi, by rw [event_getD, he], same_thread.mp hs⟩
    · exact hl.once x y i j m m' hi hj hxy (by rw [← event_getD, hx]) (by rw [← event_getD, hy]) (same_thread.mpr hs)
    · exact (hl.place x i m hi (by rw [← event_getD, hx])).1
  refine ⟨⟨fun t n r hr => ?_, fun t n r hr => ?_, fun t n i m hi he => ?_⟩, once lp, once lc⟩
  · by_cases hP : t = P
    · subst hP
      exact (lp.call n r (by rw [← event_getD, hr])).imp_right fun ⟨_, v, u, ha, hr⟩ => ⟨rfl, v, u, asked_thread ha, hr⟩
    · by_cases hC : t = C
      · subst hC
        exact .inl (lc.loads n r (by rw [← event_getD, hr]))
      · exact .inl ((h.others t n _ hP hC hr).1 r rfl)
  · by_cases hC : t = C
    · subst hC
      exact (lc.call n r (by rw [← event_getD, hr])).imp_right fun ⟨_, v, u, ha, hr⟩ => ⟨rfl, v, u, asked_thread ha, hr⟩
    · by_cases hP : t = P
      · subst hP
        exact .inl (lp.loads n r (by rw [← event_getD, hr]))
      · exact .inl ((h.others t n _ hP hC hr).2.1 r rfl)
  · by_cases hP : t = P
    · subst hP
      obtain ⟨-, v, ha, hv⟩ := lp.place n i m hi (by rw [← event_getD, he])
      exact .inl ⟨rfl, v, asked_thread ha, hv⟩
    · by_cases hC : t = C
      · subst hC
        obtain ⟨-, v, ha, hv⟩ := lc.place n i m hi (by rw [← event_getD, he])
        exact .inr ⟨rfl, v, asked_thread ha, hv⟩
      · exact absurd rfl ((h.others t n _ hP hC he).2.2 i m hi)

/-- **C154, the whole.** In every execution of the program there is no data race on a place, and the values are received first in, first out. -/
theorem C154_ring {c0 : (k : κ) → BitVec (D.w k)} {v0 : (a : γ) → BitVec (D.C a).w} {threads : List (List (Event D δ))} {w N : Nat}
    {tail head : γ} {P C : Nat} {slot : Nat → δ} (hD : D.Ok) (hx : Histories c0 v0 threads) (hne : tail ≠ head) (hPC : P ≠ C)
    (hw : (D.C tail).w = w ∧ (D.C head).w = w) (h0 : v0 tail = 0#_ ∧ v0 head = 0#_) (hdvd : N ∣ 2 ^ w) (hN : N < 2 ^ w)
    (hinj : ∀ i j, i < N → j < N → slot i = slot j → i = j) (h : Program threads w N tail head P C slot)
    (hac : ∀ p, ¬ Before threads p p) {mv : α → α} {s0 : Nat → α} {val : Nat → α} {pre : Nat → Nat × Nat → α}
    (hpl : (∀ i, i < N → ¬ Race threads (slot i)) → ∀ i, i < N → Plain (cell mv) (s0 i) threads (slot i) (cellOp P val) (pre i)) :
    (∀ i, i < N → ¬ Race threads (slot i)) ∧
    ∃ sends gets : List Nat, sends.Pairwise (· < ·) ∧ gets.Pairwise (· < ·) ∧ (∀ n, n ∈ sends ↔ IsAccess threads N slot P n) ∧
      (∀ n, n ∈ gets ↔ IsAccess threads N slot C n) ∧
      (∀ (k : Nat) n', gets[k]? = some n' → ∃ n i, sends[k]? = some n ∧ i < N ∧ IsOp threads (slot i) (C, n') ∧
        result (cell mv) (cellOp P val) (pre i) (C, n') = .ok (some (val n)) ∧
        ∀ l l' e e', eventAt threads P l = some e → eventAt threads C l' = some e' → l ≤ n → n' ≤ l' → HB threads P l C l') ∧
      sends.length ≤ gets.length + N := by
  have hpos : 0 < N := Nat.pos_of_dvd_of_pos hdvd (Nat.two_pow_pos w)
  obtain ⟨hu, hop, hoc⟩ := C154_program hne hpos hinj h
  have hrun : Run c0 v0 threads w N tail head P C slot := ⟨hD, hx, hw.1, hw.2, h0.1, h0.2, hdvd, hN, hPC, hac, hu⟩
  have hr := C154_no_race hrun
  exact ⟨hr, C154_fifo hrun hop hoc (hpl hr)⟩

/-! ## Examples -/

theorem reuse_program : Program reuse 8 1 false true 0 1 (fun i => i + 3) := by
  refine ⟨?_, ?_, fun t n e h1 h2 he => ?_⟩
  · refine .passed _ _ _ _ _ _ _ 1#8 _ (.inr ⟨_, rfl, .inl rfl⟩) (by simp [NotFull]) rfl (.inl rfl) (.inl rfl) ?_
    refine .passed _ _ _ _ _ _ _ 2#8 _ (.inr ⟨_, rfl, .inl rfl⟩) (by simp [NotFull]) rfl (.inl rfl) (.inl rfl) ?_
    refine .refused _ _ _ _ _ _ _ (.inr ⟨_, rfl, .inl rfl⟩) (by simp [NotFull]) ?_
    refine .besides _ _ ⟨nofun, nofun, fun i m hi h => ?_⟩ .done
    simp only [Event.plain.injEq] at h
    omega
  · refine .passed _ _ _ _ _ _ _ 1#8 _ (.inr ⟨_, rfl, .inl rfl⟩) (by simp [NotEmpty]) rfl (.inl rfl) (.inl rfl) ?_
    refine .refused _ _ _ _ _ _ _ (.inr ⟨_, rfl, .inl rfl⟩) (by simp [NotEmpty]) ?_
    refine .besides _ _ ⟨nofun, nofun, fun i m hi h => ?_⟩ .done
    simp only [Event.plain.injEq] at h
    omega
  · rcases reuse_at he with ⟨rfl, -⟩ | ⟨rfl, -⟩
    · exact absurd rfl h1
    · exact absurd rfl h2

example := C154_ring (tail := false) (head := true) (P := 0) (C := 1) (w := 8) (N := 1) desk_ok reuse_histories (by decide) (by decide) ⟨rfl, rfl⟩ ⟨rfl, rfl⟩ (by decide) (by decide)
  (fun i j hi hj _ => by omega) reuse_program (fun _ h => absurd (reuse_forward h) (Nat.lt_irrefl _)) fun _ => reuse_plain

end Verif.Ring
