import Verif.Sync.Spec
import Verif.AtomicBitset.Props

namespace Verif.Sync

open Verif.Conc Verif.Bitset Verif.BitMask Verif.BitOps

variable {w : Nat} {α β γ : Type}

theorem Acquiring.acquires {o : MOrd} (h : Acquiring o) : o.acquires = true := by
  rcases h with rfl | rfl | rfl <;> rfl

theorem Releasing.releases {o : MOrd} (h : Releasing o) : o.releases = true := by
  rcases h with rfl | rfl | rfl <;> rfl

theorem erase_bind (p : LProg w α) (k : α → LProg w β) : (p.bind k).erase = p.erase.bind fun a => (k a).erase := by
  induction p with
  | ret a => rfl
  | ub => rfl
  | access q o f c ih => simp [LProg.bind, LProg.erase, Prog.bind, ih]

theorem bind_assoc (p : Prog w α) (k : α → Prog w β) (l : β → Prog w γ) :
    (p.bind k).bind l = p.bind fun a => (k a).bind l := by
  induction p with
  | ret a => rfl
  | ub => rfl
  | atomically f c ih => simp [Prog.bind, ih]

theorem erase_ofOutcome (x : Outcome α) : (LProg.ofOutcome x : LProg w α).erase = Prog.ofOutcome x := by
  cases x <;> rfl

theorem ofOutcome_bind_ub (x : Outcome α) {k : α → LProg w β} (h : ∀ a, k a = .ub) : (LProg.ofOutcome x).bind k = .ub := by
  cases x <;> simp [LProg.ofOutcome, LProg.bind, h]

theorem access_ok {k : Kind} {o : MOrd} (h : k.allows o = true) (f : BitVec w → BitVec w) :
    access k o f = .access k o f .ret := by simp [access, h]

theorem access_ub {k : Kind} {o : MOrd} (h : k.allows o = false) (f : BitVec w → BitVec w) :
    access k o f = .ub := by simp [access, h]

theorem rmw_ok (o : MOrd) : Kind.rmw.allows o = true := rfl

/-- An order the kind does not allow makes the call undefined. -/
theorem bop_forbidden (N : Nat) (op : AtomicBitset.Op w) {o : MOrd} (h : (opKind op).allows o = false) : bop N o op = .ub := by
  cases op <;> simp only [opKind, rmw_ok, Bool.true_eq_false] at h <;> simp only [bop]
  · rw [bload]; exact ofOutcome_bind_ub _ fun m => by simp [load, access_ub h, LProg.bind]
  · split
    · exact ofOutcome_bind_ub _ fun m => by simp [store, access_ub h, LProg.bind]
    · rfl
  · exact ofOutcome_bind_ub _ fun m => by simp [store, access_ub h, LProg.bind]
  · simp [store, access_ub h, LProg.bind]

theorem erase_returnBitset (N : Nat) (f : BitVec w → BitVec w) (o : MOrd) :
    (returnBitset N (access .rmw o f)).erase =
      (AtomicBitset.returnBitset N (.atomically f .ret)).bind fun r => .ret (.prev r) := by
  simp [returnBitset, AtomicBitset.returnBitset, erase_bind, access_ok (rmw_ok o), LProg.erase, Prog.bind, erase_ofOutcome,
    bind_assoc]

/-- Without its orders a call is the operation of `Verif.AtomicBitset.Model`. -/
theorem bop_erase (N : Nat) (op : AtomicBitset.Op w) {o : MOrd} (h : (opKind op).allows o = true) :
    (bop N o op).erase = (AtomicBitset.impl N op).bind fun r => .ret (.prev r) := by
  cases op <;> simp only [opKind, rmw_ok] at h <;>
    simp only [bop, AtomicBitset.impl, setRange, resetRange, flipRange, AtomicBitset.setRange, AtomicBitset.resetRange,
      AtomicBitset.flipRange, erase_bind, bind_assoc, erase_ofOutcome, fetchXor, fetchAnd, fetchOr, erase_returnBitset,
      Conc.fetchXor, Conc.fetchAnd, Conc.fetchOr]
  · simp [bload, erase_bind, erase_ofOutcome, load, access_ok h, LProg.erase, Conc.load, Prog.bind, bind_assoc]
  · cases Bitset.to N w true _
    · rfl
    · simp [erase_bind, erase_ofOutcome, store, access_ok h, LProg.erase, Conc.store, Prog.bind, bind_assoc]
  · congr 1; funext v; split <;> rw [erase_returnBitset]
  · congr 1; funext v; split <;> rw [erase_returnBitset]
  · congr 1; funext v; split <;> rw [erase_returnBitset]
  · simp [store, access_ok h, LProg.erase, Conc.store, Prog.bind]
  · simp [store, access_ok h, LProg.erase, Conc.store, Prog.bind]

/-- All accesses of the program are of the kind and order. -/
def Uses (k : Kind) (o : MOrd) : LProg w α → Prop
  | .access k' o' _ c => k' = k ∧ o' = o ∧ ∀ x, Uses k o (c x)
  | _ => True

theorem Uses.bind {k : Kind} {o : MOrd} {p : LProg w α} (hp : Uses k o p) {q : α → LProg w β} (hq : ∀ a, Uses k o (q a)) :
    Uses k o (p.bind q) := by
  induction p with
  | ret a => exact hq a
  | ub => trivial
  | access k' o' f c ih => exact ⟨hp.1, hp.2.1, fun x => ih x (hp.2.2 x)⟩

theorem Uses.ofOutcome (k : Kind) (o : MOrd) (x : Outcome α) : Uses k o (LProg.ofOutcome x : LProg w α) := by
  cases x <;> trivial

theorem Uses.access (k : Kind) (o : MOrd) (f : BitVec w → BitVec w) : Uses k o (access k o f) := by
  unfold Sync.access; split
  · exact ⟨rfl, rfl, fun _ => trivial⟩
  · trivial

theorem Uses.returnBitset (N : Nat) (o : MOrd) (f : BitVec w → BitVec w) :
    Uses .rmw o (returnBitset N (Sync.access .rmw o f)) :=
  (Uses.access _ _ _).bind fun _ => (Uses.ofOutcome _ _ _).bind fun _ => trivial

theorem bop_uses (N : Nat) (op : AtomicBitset.Op w) (o : MOrd) : Uses (opKind op) o (bop N o op) := by
  cases op <;> simp only [bop, opKind, setRange, resetRange, flipRange]
  case load => exact (Uses.ofOutcome _ _ _).bind fun _ => (Uses.access _ _ _).bind fun _ => (Uses.ofOutcome _ _ _).bind fun _ => trivial
  case store =>
    split
    · exact (Uses.ofOutcome _ _ _).bind fun _ => (Uses.access _ _ _).bind fun _ => trivial
    · trivial
  case setAll => exact (Uses.ofOutcome _ _ _).bind fun _ => (Uses.access _ _ _).bind fun _ => trivial
  case resetAll => exact (Uses.access _ _ _).bind fun _ => trivial
  case flipAll => exact (Uses.ofOutcome _ _ _).bind fun _ => Uses.returnBitset _ _ _
  all_goals
    try generalize lenToMsb _ _ = n
    refine Uses.bind (Uses.ofOutcome _ _ _) fun v => ?_
    try split
    all_goals exact Uses.returnBitset _ _ _

/-- The shape of the call: one access of the specified kind and order, with the specified effect and result. -/
structure Shape (N : Nat) (c : BCall w) (f : BitVec w → BitVec w) (g : BitVec w → Res w) : Prop where
  eq : bcall N c = .access c.kind c.order f (fun x => .ret (g x))
  effect : ∀ x i, i < N → (f x).getLsbD i = match c.effect i with
    | none => x.getLsbD i
    | some h => h (x.getLsbD i)
  tells : ∀ x i b, i < N → Tells i b c (g x) → x.getLsbD i = b

theorem erase_single {p : LProg w α} {f : BitVec w → BitVec w} {g : BitVec w → α}
    (h : p.erase = .atomically f (fun c => .ret (g c))) : ∃ k o, p = .access k o f (fun c => .ret (g c)) := by
  cases p with
  | ret a => cases h
  | ub => cases h
  | access k o f' c =>
    simp only [LProg.erase, Prog.atomically.injEq] at h
    obtain ⟨rfl, h⟩ := h
    refine ⟨k, o, ?_⟩
    congr 1
    funext x
    have := congrFun h x
    cases hc : c x with
    | ret a => rw [hc] at this; simpa [LProg.erase] using this
    | ub => rw [hc] at this; cases this
    | access _ _ _ _ => rw [hc] at this; cases this

theorem observe_eq {o : MOrd} (h : Kind.load.allows o = true) {q : BitVec w → Outcome (Res w)} {g : BitVec w → Res w}
    (hq : ∀ x, q x = .ok (g x)) : observe o q = .access .load o id (fun x => .ret (g x)) := by
  simp [observe, load, access_ok h, LProg.bind, hq, LProg.ofOutcome]

theorem given_order_eq (o : Option MOrd) : (∃ x, o = some x ∧ given o = x) ∨ (o = none ∧ given o = .seqCst) := by
  cases o <;> simp [given]

theorem bcall_shape {N : Nat} (hw : StdWidth w) (hN : 0 < N) (hNw : N ≤ w) (c : BCall w) (hl : c.Legal N)
    (ha : c.kind.allows c.order = true) : ∃ f g, Shape N c f g := by
  have hop : ∀ (op : AtomicBitset.Op w) (o : MOrd), op.Legal N → (opKind op).allows o = true →
      ∃ (f : BitVec w → BitVec w) (g : BitVec w → Option (Words w)), bop N o op = .access (opKind op) o f (fun x => .ret (.prev (g x))) ∧
        (∀ x i, i < N → (f x).getLsbD i = match op.effect i with
          | none => x.getLsbD i
          | some h => h (x.getLsbD i)) ∧
        (∀ x s i b, i < N → g x = some s → Bitset.get s i = .ok b → x.getLsbD i = b) := by
    intro op o hl ha
    obtain ⟨f, g, h1, h2, h3⟩ := AtomicBitset.impl_single hw hN hNw op hl
    have he := bop_erase N op ha
    rw [h1] at he
    obtain ⟨k, o', hp⟩ := erase_single (p := bop N o op) (f := f) (g := fun c => .prev (g c)) (by rw [he]; rfl)
    have hu := bop_uses N op o
    rw [hp] at hu
    obtain ⟨rfl, rfl, -⟩ := hu
    refine ⟨f, g, hp, fun x i hi => by rw [h2 x i hi]; rfl, fun x s i b hi hs hg => ?_⟩
    have h := h3 x
    split at h
    · obtain ⟨b', e1, _, e2⟩ := h
      rw [hs] at e1; cases e1
      rw [e2 i hi] at hg; cases hg; rfl
    · rw [hs] at h; cases h
  have hsal := AtomicBitset.salient_spec hw hN hNw (w := w) (N := N)
  cases c with
  | op op mo =>
    have hord : BCall.order (.op op mo) = given mo := by cases mo <;> rfl
    rw [hord] at ha
    obtain ⟨f, g, h1, h2, h3⟩ := hop op (given mo) hl ha
    refine ⟨f, fun x => .prev (g x), ⟨by rw [hord]; exact h1, h2, fun x i b hi ht => ?_⟩⟩
    cases hg : g x with
    | none => rw [hg] at ht; exact ht.elim
    | some s => rw [hg] at ht; exact h3 x s i b hi hg ht
  | convert =>
    obtain ⟨f, g, h1, h2, h3⟩ := hop .load .seqCst trivial rfl
    refine ⟨f, fun x => .prev (g x), ⟨h1, h2, fun x i b hi ht => ?_⟩⟩
    cases hg : g x with
    | none => rw [hg] at ht; exact ht.elim
    | some s => rw [hg] at ht; exact h3 x s i b hi hg ht
  | index j =>
    have hj : ∀ x : BitVec w, AtomicBitset.get N x j = .ok (x.getLsbD j) := by
      intro x
      obtain ⟨v, hv, hv'⟩ := hsal x
      obtain ⟨s, hs, _, hs'⟩ := AtomicBitset.toBitset_spec hw hN hNw v
      simp only [AtomicBitset.get, hv, hs, Outcome.ok_bind, hs' j hl, hv']
      simp [show j < N from hl]
    refine ⟨id, fun x => .flag (x.getLsbD j), ⟨observe_eq rfl fun x => by simp [hj], fun _ _ _ => rfl, ?_⟩⟩
    rintro x i b hi ⟨rfl, rfl⟩; rfl
  | num u mo =>
    have hord : BCall.order (.num (w := w) u mo) = given mo := by cases mo <;> rfl
    rw [hord] at ha
    choose v hv hv' using hsal
    refine ⟨id, fun x => .num ((v x).setWidth u).toNat, ⟨?_, fun _ _ _ => rfl, ?_⟩⟩
    · rw [hord]; exact observe_eq ha fun x => by simp [AtomicBitset.to, show N ≤ u from hl, hv]
    · intro x i b hi ht
      change Nat.testBit _ i = b at ht
      rw [← BitVec.getLsbD, BitVec.getLsbD_setWidth, hv'] at ht
      have : i < u := Nat.lt_of_lt_of_le hi hl
      simpa [this, hi] using ht
  | all mo =>
    have hord : BCall.order (.all (w := w) mo) = given mo := by cases mo <;> rfl
    rw [hord] at ha
    choose v hv hv' using hsal
    obtain ⟨m, em, hm⟩ := AtomicBitset.mask_spec hw hN hNw
    refine ⟨id, fun x => .flag (v x == m), ⟨?_, fun _ _ _ => rfl, ?_⟩⟩
    · rw [hord]; exact observe_eq ha fun x => by simp [AtomicBitset.all, hv, em]
    · rintro x i b hi ⟨h1, rfl⟩
      have h2 := hv' x i
      rw [beq_iff_eq] at h1
      rw [h1, hm] at h2
      simpa [hi] using h2
  | any mo =>
    have hord : BCall.order (.any (w := w) mo) = given mo := by cases mo <;> rfl
    rw [hord] at ha
    choose v hv hv' using hsal
    refine ⟨id, fun x => .flag (v x != 0#w), ⟨?_, fun _ _ _ => rfl, ?_⟩⟩
    · rw [hord]; exact observe_eq ha fun x => by simp [AtomicBitset.any, hv]
    · rintro x i b hi ⟨h1, rfl⟩
      have h2 := hv' x i
      have h3 : v x = 0#w := by simpa using h1
      rw [h3] at h2
      simpa [hi] using h2
  | none mo =>
    have hord : BCall.order (.none (w := w) mo) = given mo := by cases mo <;> rfl
    rw [hord] at ha
    choose v hv hv' using hsal
    refine ⟨id, fun x => .flag (v x == 0#w), ⟨?_, fun _ _ _ => rfl, ?_⟩⟩
    · rw [hord]; exact observe_eq ha fun x => by simp [AtomicBitset.none', hv]
    · rintro x i b hi ⟨h1, rfl⟩
      have h2 := hv' x i
      have h3 : v x = 0#w := by simpa using h1
      rw [h3] at h2
      simpa [hi] using h2
  | count mo =>
    have hord : BCall.order (.count (w := w) mo) = given mo := by cases mo <;> rfl
    rw [hord] at ha
    choose v hv hv' using hsal
    refine ⟨id, fun x => .num (BitOps.popcount (v x)), ⟨?_, fun _ _ _ => rfl, fun x i b hi ht => ht.elim⟩⟩
    rw [hord]; exact observe_eq ha fun x => by simp [AtomicBitset.count, hv]

theorem bcall_forbidden (N : Nat) (c : BCall w) (h : c.kind.allows c.order = false) : bcall N c = .ub := by
  have hobs : ∀ (o : MOrd) (q : BitVec w → Outcome (Res w)), Kind.load.allows o = false → observe o q = .ub := by
    intro o q h; simp [observe, load, access_ub h, LProg.bind]
  cases c with
  | op op mo =>
    have hord : BCall.order (.op op mo) = given mo := by cases mo <;> rfl
    rw [hord] at h; exact bop_forbidden N op h
  | convert => cases h
  | index j => cases h
  | num u mo => cases mo <;> exact hobs _ _ h
  | all mo => cases mo <;> exact hobs _ _ h
  | any mo => cases mo <;> exact hobs _ _ h
  | none mo => cases mo <;> exact hobs _ _ h
  | count mo => cases mo <;> exact hobs _ _ h

theorem BCall.effect_of_load {c : BCall w} (h : c.kind = .load) (i : Nat) : c.effect i = .none := by
  cases c with
  | op o mo => cases o <;> first | rfl | cases h
  | _ => rfl

theorem BCall.effect_of_store {c : BCall w} (h : c.kind = .store) (i : Nat) : c.effect i ≠ .none := by
  cases c with
  | op o mo => cases o <;> first | (simp [BCall.effect, AtomicBitset.Op.effect]; done) | cases h
  | _ => cases h

theorem BCall.rmw_of {c : BCall w} (h : c.kind ≠ .load) {i : Nat} (he : c.effect i = .none) : c.kind = .rmw := by
  cases hk : c.kind with
  | load => exact absurd hk h
  | store => exact absurd he (BCall.effect_of_store hk i)
  | rmw => rfl

section
variable {Call ρ : Type} {impl : Call → LProg w ρ} {c0 : BitVec w} {m : Nat} {val : Nat → BitVec w}
  {threads : List (List (Rec Call ρ))}

theorem callAt_mem {t n : Nat} {r : Rec Call ρ} (h : callAt threads t n = some r) : ∃ rs ∈ threads, r ∈ rs := by
  unfold callAt at h
  cases ht : threads[t]? with
  | none => rw [ht] at h; cases h
  | some rs =>
    rw [ht] at h
    exact ⟨rs, List.mem_of_getElem? ht, List.mem_of_getElem? h⟩

theorem callAt_split {t n : Nat} {r : Rec Call ρ} (h : callAt threads t n = some r) :
    ∃ rs, threads[t]? = some rs ∧ rs[n]? = some r := by
  unfold callAt at h
  cases ht : threads[t]? with
  | none => rw [ht] at h; cases h
  | some rs => rw [ht] at h; exact ⟨rs, rfl, h⟩

theorem History.unique (hx : History impl c0 m val threads) {t n t' n' : Nat} {r r' : Rec Call ρ} {j : Nat}
    (h : callAt threads t n = some r) (h' : callAt threads t' n' = some r') (hj : r.acc = .write j) (hj' : r'.acc = .write j) :
    t = t' ∧ n = n' := by
  obtain ⟨rs, h1, h2⟩ := callAt_split h
  obtain ⟨rs', h1', h2'⟩ := callAt_split h'
  exact hx.once t t' n n' rs rs' r r' j h1 h1' h2 h2' hj hj'

theorem History.writer (hx : History impl c0 m val threads) (p : Nat) (hp : p < m) :
    ∃ t n r, callAt threads t n = some r ∧ r.acc = .write p := by
  obtain ⟨rs, h1, r, h2, h3⟩ := hx.every p hp
  obtain ⟨t, ht⟩ := List.getElem?_of_mem h1
  obtain ⟨n, hn⟩ := List.getElem?_of_mem h2
  exact ⟨t, n, r, by simp [callAt, ht, hn], h3⟩

theorem History.pos_le (hx : History impl c0 m val threads) {t n : Nat} {r : Rec Call ρ} (h : callAt threads t n = some r) :
    r.acc.pos ≤ m := by
  obtain ⟨rs, h1, h2⟩ := callAt_mem h
  have := hx.bounded rs h1 r h2
  cases hacc : r.acc with
  | write j => exact Nat.le_of_lt (this.1 j hacc)
  | read p => exact this.2 p hacc

theorem History.ordered (hx : History impl c0 m val threads) {t n n' : Nat} {r r' : Rec Call ρ}
    (h : callAt threads t n = some r) (h' : callAt threads t n' = some r') (hn : n < n') : Coherent r.acc r'.acc := by
  obtain ⟨rs, h1, h2⟩ := callAt_split h
  obtain ⟨rs', h1', h2'⟩ := callAt_split h'
  rw [h1] at h1'; cases h1'
  have hp := hx.coherent rs (List.mem_of_getElem? h1)
  obtain ⟨b1, e1⟩ := List.getElem?_eq_some_iff.1 h2
  obtain ⟨b2, e2⟩ := List.getElem?_eq_some_iff.1 h2'
  have := List.pairwise_iff_getElem.1 hp n n' (by simpa using b1) (by simpa using b2) hn
  simpa [e1, e2] using this

end

/-- What is known of a call in a history. -/
structure Facts (N : Nat) (val : Nat → BitVec w) (r : Rec (BCall w) (Res w)) : Prop where
  eq : ∃ (f : BitVec w → BitVec w) (g : BitVec w → Res w), bcall N r.call = .access r.call.kind r.call.order f (fun x => .ret (g x))
  writes : ∀ j, r.acc = .write j → r.call.kind ≠ .load ∧ ∀ i, i < N → (val (j + 1)).getLsbD i = match r.call.effect i with
    | none => (val j).getLsbD i
    | some h => h ((val j).getLsbD i)
  reads : ∀ p, r.acc = .read p → r.call.kind = .load
  tells : ∀ i b, i < N → Tells i b r.call r.res → (val r.acc.pos).getLsbD i = b

theorem History.facts {N : Nat} (hw : StdWidth w) (hN : 0 < N) (hNw : N ≤ w) {c0 : BitVec w} {m : Nat} {val : Nat → BitVec w}
    {threads : List (List (Rec (BCall w) (Res w)))} (hx : History (bcall N) c0 m val threads)
    (hlegal : ∀ rs ∈ threads, ∀ r ∈ rs, r.call.Legal N) (t n : Nat) (r : Rec (BCall w) (Res w))
    (h : callAt threads t n = some r) : Facts N val r := by
  obtain ⟨rs, h1, h2⟩ := callAt_mem h
  obtain ⟨k, o, f, c, e, hres, hacc⟩ := hx.does rs h1 r h2
  have ha : r.call.kind.allows r.call.order = true := by
    cases ha : r.call.kind.allows r.call.order with
    | true => rfl
    | false => rw [bcall_forbidden N _ ha] at e; cases e
  obtain ⟨f', g, S⟩ := bcall_shape hw hN hNw r.call (hlegal rs h1 r h2) ha
  rw [S.eq] at e
  simp only [LProg.access.injEq] at e
  obtain ⟨hk, -, rfl, rfl⟩ := e
  simp only [LProg.ret.injEq] at hres
  refine ⟨⟨f', g, S.eq⟩, fun j hj => ?_, fun p hp => ?_, fun i b hi ht => ?_⟩
  · rcases hacc with ⟨_, p, h⟩ | ⟨h3, j', h4, h5⟩
    · rw [hj] at h; cases h
    · rw [hj] at h4; cases h4
      exact ⟨by rw [hk]; exact h3, fun i hi => by rw [h5, S.effect _ i hi]⟩
  · rcases hacc with ⟨h3, _⟩ | ⟨_, j', h4, _⟩
    · rw [hk]; exact h3
    · rw [hp] at h4; cases h4
  · rw [← hres] at ht
    exact S.tells _ i b hi ht

end Verif.Sync
