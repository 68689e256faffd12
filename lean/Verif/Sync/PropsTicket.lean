import Verif.Sync.PropsMany

/-!
# Locks made of two atomics (C149)

Threads take tickets from one `atomic` and wait until another one shows their ticket (/repo/include/stdx/atomic.hpp):

```
auto const ticket = next.fetch_add(1, any_order);
while (serving.load(std::memory_order_acquire) != ticket) {}
// the thread has its turn
serving.store(ticket + 1, std::memory_order_release);
```
-/

namespace Verif.Sync

open Verif.Conc Verif.BitOps

variable {κ γ δ : Type} {D : Decls κ γ} [DecidableEq κ] [DecidableEq γ]

/-! ## Specification -/

/-- Calls that take a ticket: they add one and return the old value. (atomic.hpp:74-77, 90-93) -/
def IsTake {C : Atomic.Cfg} (c : ACall C) : Prop := c.1 = .fetchAdd 1#C.w ∨ c.1 = .postInc

/-- At its event `x`, thread `t` has its turn with ticket `k`: it has taken the ticket, then seen it by an acquiring load,
and made no other calls of `b` than loads since it took the ticket. -/
def HasTurn (threads : List (List (Event D δ))) (a b : γ) (t x k : Nat) : Prop :=
  ∃ n r v l mo u acc, n < l ∧ l < x ∧ eventAt threads t n = some (.num a r) ∧ IsTake r.call ∧ r.res = some v ∧ v.toNat = k ∧
    eventAt threads t l = some (.num b ⟨(.load, mo), some u, acc⟩) ∧ u.toNat = k ∧ (mo = none ∨ ∃ o, mo = some o ∧ Acquiring o) ∧
    ∀ y q, n < y → y < x → eventAt threads t y = some (.num b q) → q.call.1 = .load

/-- How the two atomics are used: tickets are taken from `a`; who has its turn with ticket `k` may store `k + 1` in `b`, with an order that
releases, which ends the turn.  Both may be loaded by anyone. -/
structure TicketUse (threads : List (List (Event D δ))) (a b : γ) : Prop where
  take : ∀ t n r, eventAt threads t n = some (.num a r) → IsTake r.call ∨ r.call.1 = .load
  serve : ∀ t n r, eventAt threads t n = some (.num b r) → r.call.1 = .load ∨
    ∃ k v, HasTurn threads a b t n k ∧ v.toNat = k + 1 ∧ (r.call.1 = .store v ∨ r.call.1 = .assign v) ∧
      Releasing (aorder D.dflt r.call.1 r.call.2)
  /-- There are not more tickets than values of the atomic. -/
  few : ∀ ds : List (Nat × Nat), ds.Nodup → (∀ q ∈ ds, ∃ r, eventAt threads q.1 q.2 = some (.num a r) ∧ IsTake r.call) →
    ds.length ≤ 2 ^ (D.C a).w

/-! ## Lemmas -/

theorem take_shape {C : Atomic.Cfg} (hwe : C.w ≤ C.e) (dflt : MOrd) {c : ACall C} (h : IsTake c) :
    ∃ o f g, aimpl C dflt c = .access .rmw o f g ∧ (∀ x, (f x).setWidth C.w = x.setWidth C.w + 1#C.w) ∧
      ∀ x res, g x = .ret res → res = some (x.setWidth C.w) := by
  obtain ⟨op, mo⟩ := c
  rcases h with h | h <;> simp only at h <;> subst h
  · refine ⟨given mo, _, _, rfl, fun x => ?_, fun x res h => ?_⟩
    · rw [BitVec.setWidth_add _ _ hwe, Atomic.narrow_widen hwe]
    · simpa [LProg.bind, Atomic.narrow, eq_comm] using h
  · refine ⟨dflt, _, _, rfl, fun x => ?_, fun x res h => ?_⟩
    · rw [BitVec.setWidth_add _ _ hwe, Atomic.setWidth_one' hwe]
    · simpa [LProg.bind, Atomic.narrow, eq_comm] using h

theorem load_does {C : Atomic.Cfg} {dflt : MOrd} {val : Nat → BitVec C.e} {r : Rec (ACall C) (Option (BitVec C.w))}
    (hl : r.call.1 = .load) (h : Does (aimpl C dflt) val r) :
    ∃ p f c, r.acc = .read p ∧ r.res = some (Atomic.narrow C (val p)) ∧ aimpl C dflt r.call = .access .load (given r.call.2) f c := by
  obtain ⟨⟨op, mo⟩, res, acc⟩ := r
  simp only at hl
  subst hl
  obtain ⟨k, o, f, c, e, h1, h2⟩ := h
  simp only [aimpl, acall] at e
  have hal : Kind.load.allows (given mo) = true := by
    cases ha : Kind.load.allows (given mo) with
    | true => rfl
    | false => simp [load, access_ub ha, LProg.bind] at e
  simp only [load, access_ok hal, LProg.bind, LProg.access.injEq] at e
  obtain ⟨rfl, rfl, rfl, rfl⟩ := e
  rcases h2 with ⟨_, p, hp⟩ | ⟨h, _⟩
  · simp only at hp
    subst hp
    simp only [Acc.pos, LProg.ret.injEq] at h1
    refine ⟨p, id, fun r => .ret (some (Atomic.narrow C r)), rfl, h1.symm, ?_⟩
    simp only [aimpl, acall, load, access_ok hal, LProg.bind]
  · exact absurd rfl h

theorem store_does {C : Atomic.Cfg} {dflt : MOrd} {val : Nat → BitVec C.e} {r : Rec (ACall C) (Option (BitVec C.w))} {v : BitVec C.w}
    (hl : r.call.1 = .store v ∨ r.call.1 = .assign v) (h : Does (aimpl C dflt) val r) :
    ∃ j f c, r.acc = .write j ∧ val (j + 1) = Atomic.widen C v ∧
      aimpl C dflt r.call = .access .store (aorder dflt r.call.1 r.call.2) f c := by
  obtain ⟨⟨op, mo⟩, res, acc⟩ := r
  obtain ⟨k, o, f, c, e, h1, h2⟩ := h
  simp only at e h2
  obtain ⟨f', c', e'⟩ := ((C130_atomic_orders C dflt op mo).2 (by rw [e]; simp)).1
  have e0 := e
  rw [e'] at e
  simp only [LProg.access.injEq] at e
  obtain ⟨rfl, rfl, rfl, rfl⟩ := e
  have hf : akind op = .store ∧ ∀ x, f' x = Atomic.widen C v := by
    rcases hl with hl | hl <;> simp only at hl <;> subst hl
    · refine ⟨rfl, fun x => ?_⟩
      simp only [aimpl, acall, store, access] at e0
      split at e0
      · simp only [LProg.bind, LProg.access.injEq] at e0
        rw [← e0.2.2.1]
      · simp [LProg.bind] at e0
    · refine ⟨rfl, fun x => ?_⟩
      simp only [aimpl, acall, store, access] at e0
      split at e0
      · simp only [LProg.bind, LProg.access.injEq] at e0
        rw [← e0.2.2.1]
      · simp [LProg.bind] at e0
  rcases h2 with ⟨h, _⟩ | ⟨_, j, hj, hv⟩
  · rw [hf.1] at h; cases h
  · exact ⟨j, f', c', hj, by rw [hv, hf.2], by rw [e', hf.1]⟩

/-- No ticket is taken twice. -/
theorem ticket_unique {a b : γ} (hD : D.Ok) {c0 : (k : κ) → BitVec (D.w k)} {v0 : (a : γ) → BitVec (D.C a).w}
    {threads : List (List (Event D δ))} (hx : Histories c0 v0 threads) (hu : TicketUse threads a b) {t n t' n' : Nat}
    {r r' : Rec (ACall (D.C a)) (Option (BitVec (D.C a).w))} (hr : eventAt threads t n = some (.num a r))
    (hr' : eventAt threads t' n' = some (.num a r')) (ht : IsTake r.call) (ht' : IsTake r'.call) (he : r.res = r'.res) : t = t' ∧ n = n' := by
  obtain ⟨m, val, hh⟩ := hx.num a
  have hwe := hD.elem a
  have does : ∀ t n r, callAt (part (Event.num? a) threads) t n = some r → Does (aimpl (D.C a) D.dflt) val r := by
    intro t n r h
    obtain ⟨rs, h1, h2⟩ := callAt_mem h
    exact hh.does rs h1 r h2
  have hcalls : ∀ t n r, callAt (part (Event.num? a) threads) t n = some r → IsTake r.call ∨ r.call.1 = .load := by
    intro t n r h
    obtain ⟨b, e, e1, e2, -⟩ := callAt_part h
    rw [num?_some e2] at e1
    exact hu.take t b r e1
  have tk : ∀ t n r, callAt (part (Event.num? a) threads) t n = some r → IsTake r.call →
      ∃ j, r.acc = .write j ∧ j < m ∧ (val (j + 1)).setWidth (D.C a).w = (val j).setWidth (D.C a).w + 1#(D.C a).w ∧
        r.res = some ((val j).setWidth (D.C a).w) := by
    intro t n r hr hk
    obtain ⟨o, f, g, e, h1, h2⟩ := take_shape hwe D.dflt hk
    obtain ⟨k, o', f', g', e', h5, h6⟩ := does t n r hr
    rw [e] at e'
    simp only [LProg.access.injEq] at e'
    obtain ⟨rfl, rfl, rfl, rfl⟩ := e'
    rcases h6 with ⟨h6, _⟩ | ⟨_, j, hj, hv⟩
    · cases h6
    · obtain ⟨rs, hm1, hm2⟩ := callAt_mem hr
      refine ⟨j, hj, (hh.bounded rs hm1 r hm2).1 j hj, by rw [hv, h1], ?_⟩
      rw [hj] at h5
      exact h2 _ _ h5
  have writes : ∀ t n r j, callAt (part (Event.num? a) threads) t n = some r → r.acc = .write j → IsTake r.call := by
    intro t n r j h hj
    rcases hcalls t n r h with hk | hk
    · exact hk
    · obtain ⟨p, _, _, hp, _⟩ := load_does hk (does t n r h)
      rw [hj] at hp; cases hp
  have hval : ∀ p, p ≤ m → (val p).setWidth (D.C a).w = (val 0).setWidth (D.C a).w + BitVec.ofNat (D.C a).w p := by
    intro p
    induction p with
    | zero => intro _; simp
    | succ p ih =>
      intro hp
      obtain ⟨u, l, q, hq, hqa⟩ := hh.writer p (by omega)
      obtain ⟨j, hj, _, hs, _⟩ := tk u l q hq (writes u l q p hq hqa)
      rw [hqa] at hj; cases hj
      rw [hs, ih (by omega), BitVec.ofNat_add, BitVec.add_assoc]
  have hcount : ∀ p, p ≤ m → ∃ ds : List (Nat × Nat), ds.Nodup ∧ ds.length = p ∧ ∀ q ∈ ds, ∃ r j,
      eventAt threads q.1 q.2 = some (.num a r) ∧ IsTake r.call ∧ r.acc = .write j ∧ j < p := by
    intro p
    induction p with
    | zero => exact fun _ => ⟨[], List.nodup_nil, rfl, by simp⟩
    | succ p ih =>
      intro hp
      obtain ⟨ds, d1, d2, d3⟩ := ih (by omega)
      obtain ⟨u, c, q, hq, hqa⟩ := hh.writer p (by omega)
      have hqd := writes u c q p hq hqa
      obtain ⟨b, e, e1, e2, -⟩ := callAt_part hq
      rw [num?_some e2] at e1
      refine ⟨(u, b) :: ds, List.nodup_cons.2 ⟨fun hin => ?_, d1⟩, by simp [d2], ?_⟩
      · obtain ⟨r, j, h1, -, h3, h4⟩ := d3 _ hin
        rw [e1] at h1
        cases h1
        rw [hqa] at h3; cases h3; omega
      · intro x hx
        rcases List.mem_cons.1 hx with rfl | hx
        · exact ⟨q, p, e1, hqd, hqa, by omega⟩
        · obtain ⟨r, j, h1, h2, h3, h4⟩ := d3 x hx
          exact ⟨r, j, h1, h2, h3, by omega⟩
  have hm : m ≤ 2 ^ (D.C a).w := by
    obtain ⟨ds, d1, d2, d3⟩ := hcount m (Nat.le_refl _)
    rw [← d2]
    exact hu.few ds d1 fun q hq => let ⟨r, _, h1, h2, _⟩ := d3 q hq; ⟨r, h1, h2⟩
  have c1 := part_callAt hr (num?_eq a r)
  have c2 := part_callAt hr' (num?_eq a r')
  obtain ⟨j, hj, hjm, -, h1⟩ := tk _ _ _ c1 ht
  obtain ⟨j', hj', hjm', -, h2⟩ := tk _ _ _ c2 ht'
  have hjj : j = j' := by
    rw [h1, h2, Option.some.injEq, hval j (by omega), hval j' (by omega)] at he
    have := (BitVec.add_right_inj _).1 he
    have := congrArg BitVec.toNat this
    rw [BitVec.toNat_ofNat, BitVec.toNat_ofNat, Nat.mod_eq_of_lt (by omega), Nat.mod_eq_of_lt (by omega)] at this
    exact this
  subst hjj
  obtain ⟨rfl, h3⟩ := hh.unique c1 c2 hj hj'
  exact ⟨rfl, before_inj hr (num?_eq a r) hr' (num?_eq a r') h3⟩

/-- A turn, but for that of the first ticket, begins after the store with which the one before it has ended. -/
theorem turn_after {a b : γ} (hD : D.Ok) {c0 : (k : κ) → BitVec (D.w k)} {v0 : (a : γ) → BitVec (D.C a).w}
    {threads : List (List (Event D δ))} (hx : Histories c0 v0 threads) (hu : TicketUse threads a b) (h0 : v0 b = 0#_) {t x k : Nat}
    (h : HasTurn threads a b t x (k + 1)) {e : Event D δ} (he : eventAt threads t x = some e) :
    ∃ u z r, eventAt threads u z = some (.num b r) ∧ HasTurn threads a b u z k ∧ r.call.1 ≠ .load ∧ HB threads u z t x := by
  obtain ⟨n, r, v, l, mo, w, acc, hnl, hlx, _, _, _, _, hl, hw, hacq, _⟩ := h
  obtain ⟨m, val, hh⟩ := hx.num b
  have does : ∀ t n r, callAt (part (Event.num? b) threads) t n = some r → Does (aimpl (D.C b) D.dflt) val r := by
    intro t n r h
    obtain ⟨rs, h1, h2⟩ := callAt_mem h
    exact hh.does rs h1 r h2
  have cl := part_callAt hl (num?_eq b _)
  obtain ⟨p, f, c, hp, hres, e1⟩ := load_does rfl (does _ _ _ cl)
  simp only at hp hres
  subst hp
  have hpm : p ≤ m := hh.pos_le cl
  cases p with
  | zero =>
    rw [hh.initial, Atomic.init, Atomic.narrow, Atomic.narrow_widen (hD.elem b), h0, Option.some.injEq] at hres
    rw [hres] at hw
    simp at hw
  | succ p =>
    obtain ⟨u, y, q, hq, hqa⟩ := hh.writer p (by omega)
    obtain ⟨z, ev, z1, z2, z3⟩ := callAt_part hq
    rw [num?_some z2] at z1
    rcases hu.serve u z q z1 with hld | ⟨k', v', hturn, hv', hst, hrel⟩
    · obtain ⟨p', _, _, hp', _⟩ := load_does hld (does _ _ _ hq)
      rw [hqa] at hp'; cases hp'
    · obtain ⟨j, f', c', hj, hval, e2⟩ := store_does hst (does _ _ _ hq)
      rw [hqa] at hj
      cases hj
      rw [hval, Atomic.narrow, Atomic.narrow_widen (hD.elem b), Option.some.injEq] at hres
      have hk : k' = k := by rw [hres] at hw; omega
      subst hk
      refine ⟨u, z, q, z1, hturn, by rcases hst with h | h <;> rw [h] <;> nofun, ?_⟩
      refine .trans _ _ _ _ _ _ (.num b u z t l _ _ z1 hl ?_) (.same _ _ _ _ _ hl he hlx)
      rw [z3]
      refine ⟨q, _, _, _, _, _, _, _, _, _, p, hq, cl, e2, e1, by decide, hrel.releases, by decide, ?_, hqa, by simp [Acc.pos], ?_⟩
      · rcases hacq with rfl | ⟨o, rfl, h⟩
        · rfl
        · exact h.acquires
      · intro i hi1 hi2
        simp only [Acc.pos] at hi2
        omega

/-! ## Theorems -/

/-- **C149, turns in order.** Threads take tickets from one atomic and end their turns by storing the next ticket in another: whatever a thread
does while it has its turn with some ticket happens before whatever a thread does while it has its turn with a later one. -/
theorem C149_in_order {a b : γ} (hD : D.Ok) {c0 : (k : κ) → BitVec (D.w k)} {v0 : (a : γ) → BitVec (D.C a).w}
    {threads : List (List (Event D δ))} (hx : Histories c0 v0 threads) (hu : TicketUse threads a b) (h0 : v0 b = 0#_) {t x t' x' k k' : Nat}
    {e e' : Event D δ} (he : eventAt threads t x = some e) (he' : eventAt threads t' x' = some e')
    (h : HasTurn threads a b t x k) (h' : HasTurn threads a b t' x' k') (hk : k < k') : HB threads t x t' x' := by
  induction k' generalizing t' x' e' with
  | zero => omega
  | succ k' ih =>
    obtain ⟨u, z, r, hz, hturn, hst, hhb⟩ := turn_after hD hx hu h0 h' he'
    by_cases hlt : k < k'
    · exact .trans _ _ _ _ _ _ (ih hz hturn hlt) hhb
    · obtain rfl : k = k' := by omega
      have : t = u ∧ x ≤ z := by
        obtain ⟨n, r1, v, _, _, _, _, hn1, hn2, hn, ht, hr, hv, _, _, _, hno⟩ := h
        obtain ⟨n', r2, v', _, _, _, _, hn1', hn2', hn', ht', hr', hv', _, _, _, _⟩ := hturn
        obtain ⟨rfl, rfl⟩ := ticket_unique hD hx hu hn hn' ht ht' (by
          rw [hr, hr', Option.some.injEq]; exact BitVec.eq_of_toNat_eq (by omega))
        refine ⟨rfl, Nat.le_of_not_lt fun hzx => hst (hno z r (by omega) hzx hz)⟩
      obtain ⟨rfl, hxz⟩ := this
      exact hb_from hhb hz he' he he' hxz (Nat.le_refl _)

/-- **C149, mutual exclusion.** If some data is accessed only by threads that have their turn, there is no data race on it, whatever else
the threads do. -/
theorem C149_ticket_lock {a b : γ} (hD : D.Ok) {c0 : (k : κ) → BitVec (D.w k)} {v0 : (a : γ) → BitVec (D.C a).w}
    {threads : List (List (Event D δ))} (hx : Histories c0 v0 threads) (hu : TicketUse threads a b) (h0 : v0 b = 0#_) (d : δ)
    (hd : ∀ t x m, eventAt threads t x = some (.plain d m) → ∃ k, HasTurn threads a b t x k) : ¬ Race threads d := by
  rintro ⟨t, x, m, t', y, m', hx1, hy, -, hne, h1, h2⟩
  obtain ⟨k, hk⟩ := hd t x m hx1
  obtain ⟨k', hk'⟩ := hd t' y m' hy
  rcases Nat.lt_trichotomy k k' with h | h | h
  · exact h1 (C149_in_order hD hx hu h0 hx1 hy hk hk' h)
  · subst h
    obtain ⟨n, r1, v, _, _, _, _, hn1, hn2, hn, ht, hr, hv, _⟩ := hk
    obtain ⟨n', r2, v', _, _, _, _, hn1', hn2', hn', ht', hr', hv', _⟩ := hk'
    obtain ⟨rfl, rfl⟩ := ticket_unique hD hx hu hn hn' ht ht' (by
      rw [hr, hr', Option.some.injEq]; exact BitVec.eq_of_toNat_eq (by omega))
    rcases Nat.lt_trichotomy x y with h | h | h
    · exact h1 (.same _ _ _ _ _ hx1 hy h)
    · exact hne ⟨rfl, h⟩
    · exact h2 (.same _ _ _ _ _ hy hx1 h)
  · exact h2 (C149_in_order hD hx hu h0 hy hx1 hk' hk h)

/-! ## Examples -/

/-- Two atomics of eight bits: the next ticket (`false`) and the one that is served (`true`). -/
def desk : Decls Unit Bool := ⟨fun _ => 8, fun _ => 5, fun _ => ⟨8, 32, false, false⟩, .seqCst⟩

theorem desk_ok : desk.Ok := by
  constructor <;> intro x <;> cases x <;> first | exact .inl rfl | decide

/-- The second thread sees the ticket of the first one before it sees its own. -/
def inTurn (mo : MOrd) : List (List (Event desk Nat)) :=
  [[.num false ⟨(.fetchAdd 1#8, some .relaxed), some 0#8, .write 0⟩, .num true ⟨(.load, some .acquire), some 0#8, .read 0⟩, .plain 3 true,
    .num true ⟨(.store 1#8, some mo), none, .write 0⟩],
   [.num false ⟨(.postInc, none), some 1#8, .write 1⟩, .num true ⟨(.load, some .acquire), some 0#8, .read 0⟩,
    .num true ⟨(.load, some .acquire), some 1#8, .read 1⟩, .plain 3 true]]

theorem inTurn_histories {mo : MOrd} (h : mo = .release ∨ mo = .relaxed) : Histories (fun _ => 0#8) (fun _ => 0#8) (inTurn mo) := by
  refine ⟨fun | () => ⟨0, fun _ => 0#8, .of_rules rfl ?_ ?_⟩, fun
    | false => ⟨2, fun n => [0#32, 1#32, 2#32].getD n 0#32, .of_rules rfl ?_ ?_⟩
    | true => ⟨1, fun n => [0#32, 1#32].getD n 0#32, .of_rules rfl ?_ ?_⟩⟩
  · intro rs hrs r hr
    fin_cases hrs <;> simp [Event.bits?] at hr
  · rcases h with rfl | rfl <;> decide
  · intro rs hrs r hr
    fin_cases hrs <;> fin_cases hr
    · exact ⟨_, _, _, _, rfl, rfl, .inr ⟨by decide, 0, rfl, rfl⟩⟩
    · exact ⟨_, _, _, _, rfl, rfl, .inr ⟨by decide, 1, rfl, rfl⟩⟩
  · rcases h with rfl | rfl <;> decide
  · intro rs hrs r hr
    rcases h with rfl | rfl <;> fin_cases hrs <;> fin_cases hr
    · exact ⟨_, _, _, _, rfl, rfl, .inl ⟨rfl, 0, rfl⟩⟩
    · exact ⟨_, _, _, _, rfl, rfl, .inr ⟨by decide, 0, rfl, rfl⟩⟩
    · exact ⟨_, _, _, _, rfl, rfl, .inl ⟨rfl, 0, rfl⟩⟩
    · exact ⟨_, _, _, _, rfl, rfl, .inl ⟨rfl, 1, rfl⟩⟩
    · exact ⟨_, _, _, _, rfl, rfl, .inl ⟨rfl, 0, rfl⟩⟩
    · exact ⟨_, _, _, _, rfl, rfl, .inr ⟨by decide, 0, rfl, rfl⟩⟩
    · exact ⟨_, _, _, _, rfl, rfl, .inl ⟨rfl, 0, rfl⟩⟩
    · exact ⟨_, _, _, _, rfl, rfl, .inl ⟨rfl, 1, rfl⟩⟩
  · rcases h with rfl | rfl <;> decide

theorem inTurn_first (mo : MOrd) {x : Nat} (h1 : 1 < x) (h2 : x < 4) : HasTurn (inTurn mo) false true 0 x 0 := by
  refine ⟨0, _, _, 1, _, _, _, by decide, h1, rfl, .inl rfl, rfl, rfl, rfl, rfl, .inr ⟨_, rfl, .inl rfl⟩, ?_⟩
  intro y q hy1 hy2 hq
  match y with
  | 0 => omega
  | 1 => cases hq; rfl
  | 2 => cases hq
  | _ + 3 => omega

theorem inTurn_second (mo : MOrd) : HasTurn (inTurn mo) false true 1 3 1 := by
  refine ⟨0, _, _, 2, _, _, _, by decide, by decide, rfl, .inr rfl, rfl, rfl, rfl, rfl, .inr ⟨_, rfl, .inl rfl⟩, ?_⟩
  intro y q hy1 hy2 hq
  match y with
  | 0 => omega
  | 1 => cases hq; rfl
  | 2 => cases hq; rfl
  | _ + 3 => omega

theorem inTurn_use : TicketUse (inTurn .release) false true := by
  have hat : ∀ t n r, eventAt (inTurn .release) t n = some (.num false r) → IsTake r.call ∧ ((t, n) = (0, 0) ∨ (t, n) = (1, 0)) := by
    intro t n r h
    match t, n with
    | 0, 0 => cases h; exact ⟨.inl rfl, .inl rfl⟩
    | 1, 0 => cases h; exact ⟨.inr rfl, .inr rfl⟩
    | 0, 1 | 0, 2 | 0, 3 | 1, 1 | 1, 2 | 1, 3 => cases h
    | 0, _ + 4 | 1, _ + 4 => cases h
    | _ + 2, _ => simp [eventAt, inTurn] at h
  refine ⟨fun t n r h => .inl (hat t n r h).1, ?_, ?_⟩
  · intro t n r h
    match t, n with
    | 0, 1 | 1, 1 | 1, 2 => cases h; exact .inl rfl
    | 0, 3 => cases h; exact .inr ⟨0, 1#8, inTurn_first _ (by decide) (by decide), rfl, .inl rfl, .inl rfl⟩
    | 0, 0 | 0, 2 | 1, 0 | 1, 3 => cases h
    | 0, _ + 4 | 1, _ + 4 => cases h
    | _ + 2, _ => simp [eventAt, inTurn] at h
  · intro ds hnd hall
    have hsub : ds ⊆ [(0, 0), (1, 0)] := by
      intro q hq
      obtain ⟨r, h, _⟩ := hall q hq
      rcases (hat q.1 q.2 r h).2 with e | e <;> simp [← e]
    exact Nat.le_trans (hnd.subperm hsub).length_le (by decide)

example : HB (inTurn .release) 0 2 1 3 :=
  C149_in_order desk_ok (inTurn_histories (.inl rfl)) inTurn_use rfl rfl rfl (inTurn_first _ (by decide) (by decide)) (inTurn_second _)
    (by decide)

example : ¬ Race (inTurn .release) 3 := by
  refine C149_ticket_lock desk_ok (inTurn_histories (.inl rfl)) inTurn_use rfl 3 fun t x m h => ?_
  match t, x with
  | 0, 2 => exact ⟨0, inTurn_first _ (by decide) (by decide)⟩
  | 1, 3 => exact ⟨1, inTurn_second _⟩
  | 0, 0 | 0, 1 | 0, 3 | 1, 0 | 1, 1 | 1, 2 => cases h
  | 0, _ + 4 | 1, _ + 4 => cases h
  | _ + 2, _ => simp [eventAt, inTurn] at h

/-- **C149, the order of the store matters.** If turns are ended by `relaxed` stores, data that is accessed only by threads that have their
turn is not protected: there is an execution with a data race. -/
theorem C149_relaxed_race : ∃ threads : List (List (Event desk Nat)), Histories (fun _ => 0#8) (fun _ => 0#8) threads ∧
    (∀ t x m, eventAt threads t x = some (.plain 3 m) → ∃ k, HasTurn threads false true t x k) ∧
    (∃ r, eventAt threads 0 3 = some (.num true r) ∧ r.call = (.store 1#8, some .relaxed) ∧ HasTurn threads false true 0 3 0) ∧
    Race threads 3 := by
  have hno : ∀ t n t' n', HB (inTurn .relaxed) t n t' n' → t = t' := by
    intro t n t' n' h
    induction h with
    | same => rfl
    | bits k t n t' n' q q' h h' hs =>
      match t, n with
      | 0, 0 | 0, 1 | 0, 2 | 0, 3 | 1, 0 | 1, 1 | 1, 2 | 1, 3 => cases h
      | 0, _ + 4 | 1, _ + 4 => cases h
      | _ + 2, _ => simp [eventAt, inTurn] at h
    | num a t n t' n' q q' h h' hs =>
      obtain ⟨r, r', _, _, _, _, _, _, _, _, j, h1, h2, h3, _, _, h5, _, _, h6, h7, _⟩ := hs
      generalize before (Event.num? a) (inTurn .relaxed) t n = p at h1
      generalize before (Event.num? a) (inTurn .relaxed) t' n' = p' at h2
      match a, t, p with
      | false, 0, 0 => cases h1; cases h3; cases h5
      | false, 1, 0 =>
        cases h1
        cases h6
        match t', p' with
        | 0, 0 => cases h2; simp [Acc.pos] at h7
        | 1, _ => rfl
        | 0, _ + 1 => cases h2
        | _ + 2, _ => simp [callAt, part, inTurn] at h2
      | true, 0, 0 => cases h1; cases h6
      | true, 0, 1 => cases h1; cases h3; cases h5
      | true, 1, 0 => cases h1; cases h6
      | true, 1, 1 => cases h1; cases h6
      | true, 0, _ + 2 => cases h1
      | true, 1, _ + 2 => cases h1
      | false, 0, _ + 1 => cases h1
      | false, 1, _ + 1 => cases h1
      | false, _ + 2, _ => simp [callAt, part, inTurn] at h1
      | true, _ + 2, _ => simp [callAt, part, inTurn] at h1
    | trans _ _ _ _ _ _ _ _ ih ih' => exact ih.trans ih'
  refine ⟨inTurn .relaxed, inTurn_histories (.inr rfl), fun t x m h => ?_, ⟨_, rfl, rfl, inTurn_first _ (by decide) (by decide)⟩,
    ⟨0, 2, _, 1, 3, _, rfl, rfl, .inl rfl, by decide, fun h => absurd (hno _ _ _ _ h) (by decide),
      fun h => absurd (hno _ _ _ _ h) (by decide)⟩⟩
  match t, x with
  | 0, 2 => exact ⟨0, inTurn_first _ (by decide) (by decide)⟩
  | 1, 3 => exact ⟨1, inTurn_second _⟩
  | 0, 0 | 0, 1 | 0, 3 | 1, 0 | 1, 1 | 1, 2 => cases h
  | 0, _ + 4 | 1, _ + 4 => cases h
  | _ + 2, _ => simp [eventAt, inTurn] at h

/-- The ticket that is taken when `i` have been taken before. -/
def takeAt (i : Nat) : Rec (ACall (desk.C false)) (Option (BitVec (desk.C false).w)) :=
  ⟨(.fetchAdd 1#8, some .relaxed), some (BitVec.ofNat 8 i), .write i⟩

/-- A thread takes a ticket, another one takes 256 more. -/
def crowd : List (List (Event desk Nat)) :=
  [[.num false (takeAt 0), .num true ⟨(.load, some .acquire), some 0#8, .read 0⟩, .plain 3 true],
   (List.range 256).map (fun i => .num false (takeAt (i + 1))) ++
    [.num true ⟨(.load, some .acquire), some 0#8, .read 0⟩, .plain 3 true]]

theorem crowd_false : part (Event.num? false) crowd = [[takeAt 0], (List.range 256).map fun i => takeAt (i + 1)] := by
  have : ∀ l : List Nat, (l.map fun i => Event.num (D := desk) (δ := Nat) false (takeAt (i + 1))).filterMap (Event.num? false) =
      l.map fun i => takeAt (i + 1) := by
    intro l
    induction l with
    | nil => rfl
    | cons i l ih => rw [List.map_cons, List.filterMap_cons, ih]; rfl
  simp only [part, crowd, List.map_cons, List.map_nil, List.filterMap_append, this]
  simp [Event.num?]

theorem crowd_true : part (Event.num? true) crowd =
    [[⟨(.load, some .acquire), some 0#8, .read 0⟩], [⟨(.load, some .acquire), some 0#8, .read 0⟩]] := by
  have : ∀ l : List Nat, (l.map fun i => Event.num (D := desk) (δ := Nat) false (takeAt (i + 1))).filterMap (Event.num? true) = [] := by
    intro l
    induction l with
    | nil => rfl
    | cons i l ih => rw [List.map_cons, List.filterMap_cons, ih]; rfl
  simp only [part, crowd, List.map_cons, List.map_nil, List.filterMap_append, this]
  simp [Event.num?]

theorem crowd_bits : part (Event.bits? ()) crowd = [[], []] := by
  have : ∀ l : List Nat, (l.map fun i => Event.num (D := desk) (δ := Nat) false (takeAt (i + 1))).filterMap (Event.bits? ()) = [] := by
    intro l
    induction l with
    | nil => rfl
    | cons i l ih => rw [List.map_cons, List.filterMap_cons, ih]; rfl
  simp only [part, crowd, List.map_cons, List.map_nil, List.filterMap_append, this]
  simp [Event.bits?]

theorem takeAt_does (i : Nat) : Does (aimpl (desk.C false) desk.dflt) (fun n => BitVec.ofNat 32 n) (takeAt i) := by
  refine ⟨.rmw, .relaxed, _, _, rfl, ?_, .inr ⟨by decide, i, rfl, ?_⟩⟩
  · show LProg.ret (some (BitVec.setWidth 8 (BitVec.ofNat 32 i))) = LProg.ret (some (BitVec.ofNat 8 i))
    rw [BitVec.setWidth_ofNat_of_le (by decide)]
  · show BitVec.ofNat 32 (i + 1) = BitVec.ofNat 32 i + BitVec.setWidth 32 1#8
    rw [BitVec.ofNat_add]
    rfl

theorem crowd_histories : Histories (fun _ => 0#8) (fun _ => 0#8) crowd := by
  refine ⟨fun | () => ⟨0, fun _ => 0#8, ?_⟩, fun
    | false => ⟨257, fun n => BitVec.ofNat 32 n, ?_⟩
    | true => ⟨0, fun _ => 0#32, ?_⟩⟩
  · rw [crowd_bits]
    exact .of_rules rfl (by simp) rfl
  · rw [crowd_false]
    have hmem : ∀ rs ∈ [[takeAt 0], (List.range 256).map fun i => takeAt (i + 1)], ∀ r ∈ rs, ∃ i, i < 257 ∧ r = takeAt i := by
      intro rs hrs r hr
      rcases List.mem_cons.1 hrs with rfl | hrs
      · exact ⟨0, by decide, by simpa using hr⟩
      · rw [List.mem_singleton] at hrs
        subst hrs
        obtain ⟨i, hi, rfl⟩ := List.mem_map.1 hr
        exact ⟨i + 1, by have := List.mem_range.1 hi; omega, rfl⟩
    have hat : ∀ (t i : Nat) rs r, [[takeAt 0], (List.range 256).map fun i => takeAt (i + 1)][t]? = some rs → rs[i]? = some r →
        r = takeAt (t + i) ∧ (t = 0 ∧ i = 0 ∨ t = 1) := by
      intro t i rs r ht hi
      match t, i with
      | 0, 0 => cases ht; cases hi; exact ⟨rfl, .inl ⟨rfl, rfl⟩⟩
      | 0, _ + 1 => cases ht; cases hi
      | 1, i =>
        cases ht
        rw [List.getElem?_map, Option.map_eq_some_iff] at hi
        obtain ⟨k, hk, rfl⟩ := hi
        obtain ⟨h1, rfl⟩ := List.getElem?_eq_some_iff.1 hk
        rw [List.getElem_range, Nat.add_comm]
        exact ⟨rfl, .inr rfl⟩
      | _ + 2, _ => cases ht
    refine ⟨rfl, fun rs hrs r hr => ?_, fun rs hrs r hr => ?_, fun j hj => ?_, ?_, fun rs hrs => ?_⟩
    · obtain ⟨i, _, rfl⟩ := hmem rs hrs r hr
      exact takeAt_does i
    · obtain ⟨i, hi, rfl⟩ := hmem rs hrs r hr
      exact ⟨fun j hj => (by cases hj; exact hi), nofun⟩
    · cases j with
      | zero => exact ⟨_, .head _, _, .head _, rfl⟩
      | succ j => exact ⟨_, .tail _ (.head _), takeAt (j + 1), List.mem_map.2 ⟨j, List.mem_range.2 (by omega), rfl⟩, rfl⟩
    · intro t t' i i' rs rs' r r' j ht ht' hi hi' ha ha'
      obtain ⟨rfl, h1⟩ := hat t i rs r ht hi
      obtain ⟨rfl, h2⟩ := hat t' i' rs' r' ht' hi'
      cases ha
      have : t' + i' = t + i := by simpa [takeAt] using ha'
      omega
    · rcases List.mem_cons.1 hrs with rfl | hrs
      · simp
      · rw [List.mem_singleton] at hrs
        subst hrs
        rw [List.map_map, List.pairwise_map]
        refine List.pairwise_lt_range.imp ?_
        intro i j hij
        simp only [Function.comp, takeAt, Coherent]
        omega
  · rw [crowd_true]
    refine .of_rules rfl ?_ (by decide)
    intro rs hrs r hr
    fin_cases hrs <;> fin_cases hr
    · exact ⟨_, _, _, _, rfl, rfl, .inl ⟨rfl, 0, rfl⟩⟩
    · exact ⟨_, _, _, _, rfl, rfl, .inl ⟨rfl, 0, rfl⟩⟩

theorem crowd_second {n : Nat} (hn : n < 256) : eventAt crowd 1 n = some (.num false (takeAt (n + 1))) := by
  simp only [eventAt, crowd, List.getElem?_cons_succ, List.getElem?_cons_zero, Option.bind_some]
  rw [List.getElem?_append_left (by simpa using hn), List.getElem?_map, List.getElem?_range hn]
  rfl

theorem crowd_last (n : Nat) : eventAt crowd 1 (256 + n) =
    [Event.num true ⟨(.load, some .acquire), some 0#8, .read 0⟩, .plain 3 true][n]? := by
  simp only [eventAt, crowd, List.getElem?_cons_succ, List.getElem?_cons_zero, Option.bind_some]
  rw [List.getElem?_append_right (by simp)]
  simp

/-- **C149, as many tickets as the atomic has values.** If more tickets are taken than the atomic has values, two threads can have their
turn at once: there is an execution where threads only take tickets, load and access data while they have their turn, with a data
race. -/
theorem C149_too_many_tickets_fails : ∃ threads : List (List (Event desk Nat)), Histories (fun _ => 0#8) (fun _ => 0#8) threads ∧
    (∀ t n r, eventAt threads t n = some (.num false r) → IsTake r.call) ∧
    (∀ t n r, eventAt threads t n = some (.num true r) → r.call.1 = .load) ∧
    (∀ t x m, eventAt threads t x = some (.plain 3 m) → ∃ k, HasTurn threads false true t x k) ∧ Race threads 3 := by
  have hat : ∀ t n e, eventAt crowd t n = some e → (∃ i, e = .num false (takeAt i)) ∨
      e = .num true ⟨(.load, some .acquire), some 0#8, .read 0⟩ ∨ e = .plain 3 true ∧ ((t, n) = (0, 2) ∨ (t, n) = (1, 257)) := by
    intro t n e h
    match t, n with
    | 0, 0 => cases h; exact .inl ⟨0, rfl⟩
    | 0, 1 => cases h; exact .inr (.inl rfl)
    | 0, 2 => cases h; exact .inr (.inr ⟨rfl, .inl rfl⟩)
    | 0, _ + 3 => cases h
    | 1, n =>
      by_cases hn : n < 256
      · rw [crowd_second hn] at h
        cases h
        exact .inl ⟨_, rfl⟩
      · obtain ⟨k, rfl⟩ : ∃ k, n = 256 + k := ⟨n - 256, by omega⟩
        rw [crowd_last] at h
        match k with
        | 0 => cases h; exact .inr (.inl rfl)
        | 1 => cases h; exact .inr (.inr ⟨rfl, .inr rfl⟩)
        | _ + 2 => cases h
    | _ + 2, _ => simp [eventAt, crowd] at h
  have hturn : ∀ t x m, eventAt crowd t x = some (.plain 3 m) → ∃ k, HasTurn crowd false true t x k := by
    intro t x m h
    rcases hat t x _ h with ⟨_, h⟩ | h | ⟨_, h | h⟩
    · cases h
    · cases h
    · cases h
      refine ⟨0, 0, takeAt 0, _, 1, _, _, _, by decide, by decide, rfl, .inl rfl, rfl, rfl, rfl, rfl, .inr ⟨_, rfl, .inl rfl⟩, ?_⟩
      intro y q _ _ hq
      rcases hat 0 y _ hq with ⟨_, h⟩ | h | ⟨h, _⟩
      · cases h
      · cases h; rfl
      · cases h
    · cases h
      refine ⟨0, 255, takeAt 256, _, 256, _, _, _, by decide, by decide, crowd_second (by decide), .inl rfl, rfl, rfl,
        crowd_last 0, rfl, .inr ⟨_, rfl, .inl rfl⟩, ?_⟩
      intro y q _ _ hq
      rcases hat 1 y _ hq with ⟨_, h⟩ | h | ⟨h, _⟩
      · cases h
      · cases h; rfl
      · cases h
  have hno : ∀ t n t' n', HB crowd t n t' n' → t = t' := by
    intro t n t' n' h
    induction h with
    | same => rfl
    | bits k t n t' n' q q' h h' hs =>
      rcases hat t n _ h with ⟨_, h⟩ | h | ⟨h, _⟩ <;> cases h
    | num a t n t' n' q q' h h' hs =>
      obtain ⟨r, r', _, _, _, _, _, _, _, _, j, h1, h2, h3, _, _, h5, _, _, h6, h7, _⟩ := hs
      have e := part_callAt h (num?_eq a q)
      rw [h1] at e
      cases e
      rcases hat t n _ h with ⟨_, h⟩ | h | ⟨h, _⟩
      · cases h; cases h3; cases h5
      · cases h; cases h6
      · cases h
    | trans _ _ _ _ _ _ _ _ ih ih' => exact ih.trans ih'
  refine ⟨crowd, crowd_histories, fun t n r h => ?_, fun t n r h => ?_, hturn,
    ⟨0, 2, _, 1, 257, _, rfl, crowd_last 1, .inl rfl, by decide, fun h => absurd (hno _ _ _ _ h) (by decide),
      fun h => absurd (hno _ _ _ _ h) (by decide)⟩⟩
  · rcases hat t n _ h with ⟨_, h⟩ | h | ⟨h, _⟩
    · cases h; exact .inl rfl
    · cases h
    · cases h
  · rcases hat t n _ h with ⟨_, h⟩ | h | ⟨h, _⟩
    · cases h
    · cases h; rfl
    · cases h

end Verif.Sync
