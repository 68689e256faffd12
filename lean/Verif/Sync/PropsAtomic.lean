import Verif.Sync.Props
import Verif.Atomic.Props

/-!
# What calls of `atomic` tell other threads (C130)
-/

namespace Verif.Sync

open Verif.Conc

/-- A call of a member function of `atomic` and the order it is given, if any. -/
abbrev ACall (C : Atomic.Cfg) := Atomic.Op C.w × Option MOrd

/-- What the calls of `atomic` do (atomic.hpp:52-118). -/
def aimpl (C : Atomic.Cfg) (dflt : MOrd) (c : ACall C) : LProg C.e (Option (BitVec C.w)) := acall C dflt c.2 c.1

/-- What the calls do to the object. -/
def akind {w : Nat} : Atomic.Op w → Kind
  | .load => .load
  | .store _ | .assign _ => .store
  | _ => .rmw

/-- The order of a call: the one given for the functions that take one, `seq_cst` if none is given and for the assignment
operators, the default of the external library for `++` and `--`. -/
def aorder {w : Nat} (dflt : MOrd) : Atomic.Op w → Option MOrd → MOrd
  | .assign _, _ | .addAssign _, _ | .subAssign _, _ | .andAssign _, _ | .orAssign _, _ | .xorAssign _, _ => .seqCst
  | .preInc, _ | .postInc, _ | .preDec, _ | .postDec, _ => dflt
  | _, some o => o
  | _, none => .seqCst

/-- **C130, orders of `atomic`.** A call is undefined for its order exactly when `load` is given `release` or `acq_rel`, or
`store` one of `consume`, `acquire` and `acq_rel`; otherwise it makes one access, with the order given or else `seq_cst`, and is
apart from the order the operation of C40. -/
theorem C130_atomic_orders (C : Atomic.Cfg) (dflt : MOrd) (op : Atomic.Op C.w) (mo : Option MOrd) :
    (aimpl C dflt (op, mo) = .ub ↔ (op = .load ∧ (mo = some .release ∨ mo = some .acqRel)) ∨
      ((∃ v, op = .store v) ∧ (mo = some .consume ∨ mo = some .acquire ∨ mo = some .acqRel))) ∧
    (aimpl C dflt (op, mo) ≠ .ub → (∃ f c, aimpl C dflt (op, mo) = .access (akind op) (aorder dflt op mo) f c) ∧
      (aimpl C dflt (op, mo)).erase = Atomic.impl C op) := by
  cases op with
  | load =>
    rcases mo with _ | o
    · simp [aimpl, acall, given, load, access, Kind.allows, LProg.bind, LProg.erase, Atomic.impl, Conc.load, Prog.bind, akind, aorder]
    · cases o <;>
        simp [aimpl, acall, given, load, access, Kind.allows, LProg.bind, LProg.erase, Atomic.impl, Conc.load, Prog.bind, akind, aorder]
  | store v =>
    rcases mo with _ | o
    · simp [aimpl, acall, given, store, access, Kind.allows, LProg.bind, LProg.erase, Atomic.impl, Conc.store, Prog.bind, akind, aorder]
    · cases o <;>
        simp [aimpl, acall, given, store, access, Kind.allows, LProg.bind, LProg.erase, Atomic.impl, Conc.store, Prog.bind, akind, aorder]
  | assign v =>
    simp [aimpl, acall, store, access, Kind.allows, LProg.bind, LProg.erase, Atomic.impl, Conc.store, Prog.bind, akind, aorder]
  | preInc | preDec | addAssign | subAssign =>
    simp [aimpl, acall, fetchAdd, fetchSub, access, Kind.allows, LProg.bind, LProg.erase, Atomic.impl, Conc.fetchAdd, Conc.fetchSub,
      Prog.bind, akind, aorder, erase_bind, erase_ofOutcome]
  | _ =>
    cases mo <;>
    simp [aimpl, acall, given, exchange, fetchAdd, fetchSub, fetchAnd, fetchOr, fetchXor, access, Kind.allows, LProg.bind, LProg.erase,
      Atomic.impl, Conc.exchange, Conc.fetchAdd, Conc.fetchSub, Conc.fetchAnd, Conc.fetchOr, Conc.fetchXor, Prog.bind, akind, aorder]

/-- **C130, publication by `atomic`.** If only one call of all changes the object, with an order that releases, it and all that its
thread has done before happen before every load with an acquiring order that returns something else than the object was
initialised with. -/
theorem C130_atomic_publication (C : Atomic.Cfg) (hwe : C.w ≤ C.e) (dflt : MOrd) (v0 : BitVec C.w) {m : Nat} {val : Nat → BitVec C.e}
    {threads : List (List (Rec (ACall C) (Option (BitVec C.w))))}
    (hx : History (aimpl C dflt) (Atomic.init C v0) m val threads)
    (t n : Nat) (r : Rec (ACall C) (Option (BitVec C.w))) (hr : callAt threads t n = some r)
    (hrel : Releasing (aorder dflt r.call.1 r.call.2))
    (honly : ∀ t' n' r', callAt threads t' n' = some r' → r'.call.1 ≠ .load → t' = t ∧ n' = n)
    (t' n' : Nat) (mo : Option MOrd) (v : BitVec C.w) (a : Acc) (hr' : callAt threads t' n' = some ⟨(.load, mo), some v, a⟩)
    (hacq : mo = none ∨ ∃ o, mo = some o ∧ Acquiring o) (hv : v ≠ v0) :
    HappensBefore (aimpl C dflt) threads t n t' n' ∧
      ∀ l q, callAt threads t l = some q → l < n → HappensBefore (aimpl C dflt) threads t l t' n' := by
  have shape : ∀ r : Rec (ACall C) (Option (BitVec C.w)), Does (aimpl C dflt) val r →
      ∃ f c, aimpl C dflt r.call = .access (akind r.call.1) (aorder dflt r.call.1 r.call.2) f c ∧
        c (val r.acc.pos) = .ret r.res ∧ (akind r.call.1 = .load ↔ ∃ p, r.acc = .read p) := by
    rintro ⟨⟨op, mo⟩, res, acc⟩ ⟨k, o, f, c, e, h1, h2⟩
    obtain ⟨f', c', e'⟩ := ((C130_atomic_orders C dflt op mo).2 (by simp only at e; rw [e]; simp)).1
    simp only at e
    rw [e'] at e
    simp only [LProg.access.injEq] at e
    obtain ⟨rfl, rfl, rfl, rfl⟩ := e
    refine ⟨f', c', e', h1, ?_⟩
    rcases h2 with ⟨h2, h3⟩ | ⟨h2, j, h3, _⟩
    · exact ⟨fun _ => h3, fun _ => h2⟩
    · exact ⟨fun h => absurd h h2, fun ⟨p, h⟩ => by rw [h3] at h; cases h⟩
  have does : ∀ t n r, callAt threads t n = some r → Does (aimpl C dflt) val r := by
    intro t n r h
    obtain ⟨rs, h1, h2⟩ := callAt_mem h
    exact hx.does rs h1 r h2
  obtain ⟨f', c', e', hc', hk'⟩ := shape _ (does _ _ _ hr')
  obtain ⟨p, hp⟩ := hk'.1 rfl
  simp only at hp
  subst hp
  have hpm : p ≤ m := hx.pos_le hr'
  have hval : v = Atomic.narrow C (val p) := by
    simp only [aimpl, acall] at e'
    have hal : Kind.load.allows (given mo) = true := by
      cases ha : Kind.load.allows (given mo) with
      | true => rfl
      | false => simp [load, access_ub ha, LProg.bind] at e'
    simp only [load, access_ok hal, LProg.bind, LProg.access.injEq] at e'
    obtain ⟨_, _, _, rfl⟩ := e'
    simp only [Acc.pos, LProg.ret.injEq, Option.some.injEq] at hc'
    exact hc'.symm
  have hp0 : 0 < p := by
    rcases Nat.eq_zero_or_pos p with rfl | h
    · rw [hx.initial] at hval
      exact absurd (by rw [hval]; exact Atomic.narrow_widen hwe v0) hv
    · exact h
  -- the only write is that of the first call
  obtain ⟨u, l, q, hq, hqa⟩ := hx.writer 0 (by omega)
  have hnl : ∀ u l q j, callAt threads u l = some q → q.acc = .write j → q.call.1 ≠ .load := by
    intro u l q j hq hqa h
    obtain ⟨_, _, _, _, hk⟩ := shape _ (does _ _ _ hq)
    obtain ⟨p, h⟩ := hk.1 (by rw [h]; rfl)
    rw [hqa] at h; cases h
  obtain ⟨rfl, rfl⟩ := honly u l q hq (hnl u l q 0 hq hqa)
  rw [hq] at hr; cases hr
  obtain ⟨f, c, e, _, hk⟩ := shape _ (does _ _ _ hq)
  have hhb : HappensBefore (aimpl C dflt) threads u l t' n' := by
    refine .sync _ _ _ _ ⟨r, _, _, _, _, _, _, _, _, _, 0, hq, hr', e, e', ?_, hrel.releases, ?_, ?_, hqa, hp0, ?_⟩
    · intro h
      obtain ⟨p, h⟩ := hk.1 h
      rw [hqa] at h; cases h
    · simp [akind]
    · rcases hacq with rfl | ⟨o, rfl, h⟩
      · rfl
      · exact h.acquires
    · intro i hi _ u' l' q' hq' hqa'
      obtain ⟨rfl, rfl⟩ := honly u' l' q' hq' (hnl u' l' q' i hq' hqa')
      rw [hq] at hq'; cases hq'
      rw [hqa] at hqa'; cases hqa'
      omega
  exact ⟨hhb, fun l' q' h' hl => .trans _ _ _ _ _ _ (.same _ _ _ _ _ h' hq hl) hhb⟩

/-- Calls that take one off a count, with an order that acquires and releases. -/
def IsDec {C : Atomic.Cfg} (c : ACall C) : Prop :=
  (c.1 = .fetchSub 1#C.w ∧ (c.2 = none ∨ c.2 = some .acqRel ∨ c.2 = some .seqCst)) ∨ c.1 = .subAssign 1#C.w ∨
    c.1 = .preDec ∨ c.1 = .postDec

/-- The result tells that the count was one before: `fetch_sub` and `x--` return the old value, `-=` and `--x` the new one. -/
def TellsLast {C : Atomic.Cfg} (c : ACall C) (res : Option (BitVec C.w)) : Prop :=
  ((∃ v, c.1 = .fetchSub v) ∨ c.1 = .postDec) ∧ res = some 1#C.w ∨
    ((∃ v, c.1 = .subAssign v) ∨ c.1 = .preDec) ∧ res = some 0#C.w

theorem dec_shape {C : Atomic.Cfg} (hwe : C.w ≤ C.e) {dflt : MOrd} (hd : dflt = .seqCst ∨ dflt = .acqRel) {c : ACall C} (h : IsDec c) :
    ∃ o f g, aimpl C dflt c = .access .rmw o f g ∧ o.acquires = true ∧ o.releases = true ∧
      (∀ x, (f x).setWidth C.w = x.setWidth C.w - 1#C.w) ∧
      (∀ x res, g x = .ret res → TellsLast c res → x.setWidth C.w = 1#C.w) := by
  have hord : ∀ o : MOrd, o = .seqCst ∨ o = .acqRel → o.acquires = true ∧ o.releases = true := by
    rintro o (rfl | rfl) <;> exact ⟨rfl, rfl⟩
  have hsub : ∀ (a b : BitVec C.w), a - b = 0#C.w → a = b := by
    intro a b h
    have := congrArg (· + b) h
    simpa using this
  obtain ⟨op, mo⟩ := c
  rcases h with ⟨h, hmo⟩ | h | h | h <;> simp only at h <;> subst h
  · have hg : given mo = .seqCst ∨ given mo = .acqRel := by
      rcases hmo with h | h | h <;> simp only at h <;> subst h <;> simp [given]
    refine ⟨given mo, _, _, rfl, (hord _ hg).1, (hord _ hg).2, fun x => ?_, fun x res h1 h2 => ?_⟩
    · rw [Atomic.setWidth_sub' hwe, Atomic.narrow_widen hwe]
    · rcases h2 with ⟨-, rfl⟩ | ⟨⟨v, h⟩ | h, -⟩
      · simpa [LProg.bind, Atomic.narrow] using h1
      · cases h
      · cases h
  · refine ⟨.seqCst, _, _, rfl, rfl, rfl, fun x => ?_, fun x res h1 h2 => ?_⟩
    · rw [Atomic.setWidth_sub' hwe, Atomic.narrow_widen hwe]
    · rcases h2 with ⟨⟨v, h⟩ | h, -⟩ | ⟨-, rfl⟩
      · cases h
      · cases h
      · simp only [LProg.bind, Atomic.csub] at h1
        split at h1
        · cases h1
        · simp only [LProg.ofOutcome, LProg.bind, LProg.ret.injEq, Option.some.injEq] at h1
          exact hsub _ _ h1
  · refine ⟨dflt, _, _, rfl, (hord _ hd).1, (hord _ hd).2, fun x => ?_, fun x res h1 h2 => ?_⟩
    · rw [Atomic.setWidth_sub' hwe, Atomic.setWidth_one' hwe]
    · rcases h2 with ⟨⟨v, h⟩ | h, -⟩ | ⟨-, rfl⟩
      · cases h
      · cases h
      · simp only [LProg.bind, Atomic.csub] at h1
        split at h1
        · cases h1
        · simp only [LProg.ofOutcome, LProg.bind, LProg.ret.injEq, Option.some.injEq, Atomic.narrow] at h1
          rw [Atomic.setWidth_sub' hwe, Atomic.setWidth_one' hwe] at h1
          exact hsub _ _ h1
  · refine ⟨dflt, _, _, rfl, (hord _ hd).1, (hord _ hd).2, fun x => ?_, fun x res h1 h2 => ?_⟩
    · rw [Atomic.setWidth_sub' hwe, Atomic.setWidth_one' hwe]
    · rcases h2 with ⟨-, rfl⟩ | ⟨⟨v, h⟩ | h, -⟩
      · simpa [LProg.bind, Atomic.narrow] using h1
      · cases h
      · cases h

theorem writes_dec {C : Atomic.Cfg} {dflt : MOrd} {c0 : BitVec C.e} {m : Nat} {val : Nat → BitVec C.e}
    {threads : List (List (Rec (ACall C) (Option (BitVec C.w))))} (hx : History (aimpl C dflt) c0 m val threads)
    (hcalls : ∀ t n r, callAt threads t n = some r → IsDec r.call ∨ r.call.1 = .load) :
    ∀ t n r j, callAt threads t n = some r → r.acc = .write j → IsDec r.call := by
  intro t n r j hr hj
  rcases hcalls t n r hr with h | h
  · exact h
  · obtain ⟨⟨op, mo⟩, res, acc⟩ := r
    simp only at h hj; subst h hj
    obtain ⟨rs, hm1, hm2⟩ := callAt_mem hr
    obtain ⟨k, o, f, g, e, h5, h6⟩ := hx.does rs hm1 _ hm2
    have hk : k = .load := by
      simp only [aimpl, acall] at e
      cases ha : Kind.load.allows (given mo) with
      | true => rw [load, access_ok ha] at e; simp only [LProg.bind, LProg.access.injEq] at e; exact e.1.symm
      | false => rw [load, access_ub ha] at e; cases e
    rcases h6 with ⟨_, p, h⟩ | ⟨h, _⟩
    · cases h
    · exact absurd hk h

/-- **C130, reference counts.** An `atomic` starts with the number of references, and each is given up once, by `fetch_sub(1)`,
`-= 1`, `--x` or `x--`; the threads may also load it, with any orders. When a call tells that it has given up the last one, all
the others, and all that their threads have done before, happen before it. (The default order of the external library is
taken to be `seq_cst` or `acq_rel`.) -/
theorem C130_last_reference (C : Atomic.Cfg) (hwe : C.w ≤ C.e) (dflt : MOrd) (hd : dflt = .seqCst ∨ dflt = .acqRel)
    (count : BitVec C.w) {m : Nat} {val : Nat → BitVec C.e} {threads : List (List (Rec (ACall C) (Option (BitVec C.w))))}
    (hx : History (aimpl C dflt) (Atomic.init C count) m val threads)
    (hcalls : ∀ t n r, callAt threads t n = some r → IsDec r.call ∨ r.call.1 = .load) (hm : m ≤ count.toNat)
    (t n : Nat) (r : Rec (ACall C) (Option (BitVec C.w))) (hr : callAt threads t n = some r) (hdec : IsDec r.call)
    (hlast : TellsLast r.call r.res)
    (t' n' : Nat) (r' : Rec (ACall C) (Option (BitVec C.w))) (hr' : callAt threads t' n' = some r') (hdec' : IsDec r'.call)
    (hne : ¬ (t' = t ∧ n' = n)) : HappensBefore (aimpl C dflt) threads t' n' t n := by
  have does : ∀ t n r, callAt threads t n = some r → Does (aimpl C dflt) val r := by
    intro t n r h
    obtain ⟨rs, h1, h2⟩ := callAt_mem h
    exact hx.does rs h1 r h2
  -- the calls that count
  have dec : ∀ t n r, callAt threads t n = some r → IsDec r.call →
      ∃ j o f g, r.acc = .write j ∧ j < m ∧ aimpl C dflt r.call = .access .rmw o f g ∧ o.acquires = true ∧ o.releases = true ∧
        (val (j + 1)).setWidth C.w = (val j).setWidth C.w - 1#C.w ∧
        (TellsLast r.call r.res → (val j).setWidth C.w = 1#C.w) := by
    intro t n r hr hdec
    obtain ⟨o, f, g, e, h1, h2, h3, h4⟩ := dec_shape hwe hd hdec
    obtain ⟨k, o', f', g', e', h5, h6⟩ := does t n r hr
    rw [e] at e'
    simp only [LProg.access.injEq] at e'
    obtain ⟨rfl, rfl, rfl, rfl⟩ := e'
    rcases h6 with ⟨h6, _⟩ | ⟨_, j, hj, hv⟩
    · cases h6
    · obtain ⟨rs, hm1, hm2⟩ := callAt_mem hr
      refine ⟨j, o, f, g, hj, (hx.bounded rs hm1 r hm2).1 j hj, e, h1, h2, by rw [hv, h3], fun h => ?_⟩
      rw [hj] at h5
      exact h4 _ _ h5 h
  have writes := writes_dec hx hcalls
  have hval : ∀ p, p ≤ m → (val p).setWidth C.w = count - BitVec.ofNat C.w p := by
    intro p
    induction p with
    | zero => intro _; rw [hx.initial]; simpa [Atomic.init] using Atomic.narrow_widen hwe count
    | succ p ih =>
      intro hp
      obtain ⟨u, l, q, hq, hqa⟩ := hx.writer p (by omega)
      obtain ⟨j, o, f, g, hj, _, _, _, _, hs, _⟩ := dec u l q hq (writes u l q p hq hqa)
      rw [hqa] at hj; cases hj
      rw [hs, ih (by omega), BitVec.ofNat_add, BitVec.sub_sub]
  obtain ⟨j, o, f, g, hj, hjm, e, hacq, -, -, hone⟩ := dec t n r hr hdec
  obtain ⟨j', o', f', g', hj', hjm', e', -, hrel, -, -⟩ := dec t' n' r' hr' hdec'
  have hjc : count.toNat - j = 1 := by
    have h1 := hone hlast
    rw [hval j (by omega)] at h1
    have hc := count.isLt
    have h2 := congrArg BitVec.toNat h1
    have h3 : (BitVec.ofNat C.w j).toNat = j := by rw [BitVec.toNat_ofNat]; exact Nat.mod_eq_of_lt (by omega)
    rw [BitVec.toNat_sub_of_le (by rw [BitVec.le_def, h3]; omega), h3] at h2
    have hw1 : 1 < 2 ^ C.w ∨ 2 ^ C.w ≤ 1 := Nat.lt_or_ge _ _
    rcases hw1 with hw1 | hw1
    · rw [h2, BitVec.toNat_ofNat, Nat.mod_eq_of_lt hw1]
    · omega
  have hlt : j' < j := by
    have : j' ≠ j := by
      rintro rfl
      exact hne (hx.unique hr' hr hj' hj)
    omega
  refine .sync _ _ _ _ ⟨r', r, _, _, _, _, _, _, _, _, j', hr', hr, e', e, by decide, hrel, by decide, hacq, hj',
    by rw [hj]; exact hlt, ?_⟩
  intro i _ _ u l q hq hqa
  obtain ⟨_, o, f, g, _, _, e, _⟩ := dec u l q hq (writes u l q i hq hqa)
  exact ⟨o, f, g, e⟩

/-- Three references to something, given up by three threads; the second finds that it was the last to do so. -/
def counted : List (List (Rec (ACall ⟨8, 32, false, false⟩) (Option (BitVec 8)))) :=
  [[⟨(.postDec, none), some 3#8, .write 0⟩],
   [⟨(.load, some .relaxed), some 3#8, .read 0⟩, ⟨(.fetchSub 1#8, some .acqRel), some 1#8, .write 2⟩],
   [⟨(.preDec, none), some 1#8, .write 1⟩]]

theorem counted_history : History (aimpl ⟨8, 32, false, false⟩ .seqCst) (Atomic.init ⟨8, 32, false, false⟩ 3#8) 3
    (fun n => [3#32, 2#32, 1#32, 0#32].getD n 0#32) counted := by
  refine .of_rules rfl ?_ (by decide)
  intro rs hrs r hr
  fin_cases hrs <;> fin_cases hr
  · exact ⟨_, _, _, _, rfl, rfl, .inr ⟨by decide, 0, rfl, rfl⟩⟩
  · exact ⟨_, _, _, _, rfl, rfl, .inl ⟨rfl, 0, rfl⟩⟩
  · exact ⟨_, _, _, _, rfl, rfl, .inr ⟨by decide, 2, rfl, rfl⟩⟩
  · exact ⟨_, _, _, _, rfl, rfl, .inr ⟨by decide, 1, rfl, rfl⟩⟩

example : HappensBefore (aimpl ⟨8, 32, false, false⟩ .seqCst) counted 0 0 1 1 ∧
    HappensBefore (aimpl ⟨8, 32, false, false⟩ .seqCst) counted 2 0 1 1 := by
  have hc : ∀ t n r, callAt counted t n = some r → IsDec r.call ∨ r.call.1 = .load := by
    intro t n r h
    match t, n with
    | 0, 0 => cases h; simp [IsDec]
    | 1, 0 => cases h; simp
    | 1, 1 => cases h; simp [IsDec]
    | 2, 0 => cases h; simp [IsDec]
    | 0, _ + 1 => cases h
    | 1, _ + 2 => cases h
    | 2, _ + 1 => cases h
    | _ + 3, _ => simp [callAt, counted] at h
  exact ⟨C130_last_reference _ (by decide) _ (.inl rfl) 3#8 counted_history hc (by decide) 1 1 _ rfl
      (.inl ⟨rfl, .inr (.inl rfl)⟩) (.inl ⟨.inl ⟨_, rfl⟩, rfl⟩) 0 0 _ rfl (.inr (.inr (.inr rfl))) (by decide),
    C130_last_reference _ (by decide) _ (.inl rfl) 3#8 counted_history hc (by decide) 1 1 _ rfl
      (.inl ⟨rfl, .inr (.inl rfl)⟩) (.inl ⟨.inl ⟨_, rfl⟩, rfl⟩) 2 0 _ rfl (.inr (.inr (.inl rfl))) (by decide)⟩

/-- A value stored with `release`. -/
def flagged : List (List (Rec (ACall ⟨8, 32, false, false⟩) (Option (BitVec 8)))) :=
  [[⟨(.load, none), some 0#8, .read 0⟩, ⟨(.store 7#8, some .release), none, .write 0⟩],
   [⟨(.load, some .relaxed), some 0#8, .read 0⟩, ⟨(.load, some .acquire), some 7#8, .read 1⟩]]

theorem flagged_history : History (aimpl ⟨8, 32, false, false⟩ .seqCst) (Atomic.init ⟨8, 32, false, false⟩ 0#8) 1
    (fun n => [0#32, 7#32].getD n 0#32) flagged := by
  refine .of_rules rfl ?_ (by decide)
  intro rs hrs r hr
  fin_cases hrs <;> fin_cases hr
  · exact ⟨_, _, _, _, rfl, rfl, .inl ⟨rfl, 0, rfl⟩⟩
  · exact ⟨_, _, _, _, rfl, rfl, .inr ⟨by decide, 0, rfl, rfl⟩⟩
  · exact ⟨_, _, _, _, rfl, rfl, .inl ⟨rfl, 0, rfl⟩⟩
  · exact ⟨_, _, _, _, rfl, rfl, .inl ⟨rfl, 1, rfl⟩⟩

example : HappensBefore (aimpl ⟨8, 32, false, false⟩ .seqCst) flagged 0 1 1 1 := by
  refine (C130_atomic_publication _ (by decide) .seqCst 0#8 flagged_history 0 1 _ rfl (.inl rfl) ?_ 1 1 (some .acquire) 7#8 _ rfl
    (.inr ⟨_, rfl, .inl rfl⟩) (by decide)).1
  intro t n r h
  match t, n with
  | 0, 0 => cases h; intro h; exact absurd rfl h
  | 0, 1 => exact fun _ => ⟨rfl, rfl⟩
  | 0, _ + 2 => cases h
  | 1, 0 => cases h; intro h; exact absurd rfl h
  | 1, 1 => cases h; intro h; exact absurd rfl h
  | 1, _ + 2 => cases h
  | _ + 2, _ => simp [callAt, flagged] at h

end Verif.Sync
