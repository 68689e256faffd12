import Verif.Sync.Lemmas
import Verif.Sync.Check
import Mathlib.Tactic.FinCases

/-!
# What calls of `atomic_bitset` tell other threads (C130)
-/

namespace Verif.Sync

open Verif.Conc Verif.Bitset Verif.BitMask Verif.BitOps

variable {w : Nat}

/-- **C130, orders.** Every call makes at most one access to the object. It has the order that is given, and `seq_cst` if none is
given or can be. A call is undefined exactly when a function that only reads is given `release` or `acq_rel`, or one that only
writes — `store`, `set()` and `reset()` of all positions, but not `flip()` — is given `consume`, `acquire` or
`acq_rel`. -/
theorem C130_orders {N : Nat} (hw : StdWidth w) (hN : 0 < N) (hNw : N ≤ w) (c : BCall w) (hl : c.Legal N) :
    (bcall N c = .ub ↔ (c.kind = .load ∧ (c.order = .release ∨ c.order = .acqRel)) ∨
      (c.kind = .store ∧ (c.order = .consume ∨ c.order = .acquire ∨ c.order = .acqRel))) ∧
    (bcall N c ≠ .ub → ∃ (f : BitVec w → BitVec w) (g : BitVec w → Res w), bcall N c = .access c.kind c.order f (fun x => .ret (g x))) := by
  have hb : c.kind.allows c.order = false ↔ (c.kind = .load ∧ (c.order = .release ∨ c.order = .acqRel)) ∨
      (c.kind = .store ∧ (c.order = .consume ∨ c.order = .acquire ∨ c.order = .acqRel)) := by
    cases c.kind <;> cases c.order <;> decide
  rw [← hb]
  cases ha : c.kind.allows c.order with
  | false => simp [bcall_forbidden N c ha]
  | true =>
    obtain ⟨f, g, h⟩ := bcall_shape hw hN hNw c hl ha
    refine ⟨⟨fun h' => ?_, fun h' => ?_⟩, fun _ => ⟨f, g, h.eq⟩⟩
    · rw [h.eq] at h'; cases h'
    · cases h'

/-- The set-all and reset-all members take no acquiring order, flip-all does. -/
example : (BCall.op (w := 8) .resetAll (some .acquire)).Legal 5 ∧ bcall 5 (.op (w := 8) .resetAll (some .acquire)) = .ub ∧
    bcall 5 (.op (w := 8) .flipAll (some .acquire)) ≠ .ub := by
  have h1 := (C130_orders (w := 8) (N := 5) (.inl rfl) (by decide) (by decide) (.op .resetAll (some .acquire)) trivial).1
  have h2 := (C130_orders (w := 8) (N := 5) (.inl rfl) (by decide) (by decide) (.op .flipAll (some .acquire)) trivial).1
  exact ⟨trivial, h1.2 (by decide), fun h => absurd (h2.1 h) (by decide)⟩

/-- **C130, the same operations.** Apart from the orders, a call with an order it allows is the operation of C38 to C41. -/
theorem C130_same_operations (N : Nat) (op : AtomicBitset.Op w) (mo : Option MOrd)
    (h : (BCall.op op mo).kind.allows (BCall.op op mo).order = true) :
    (bcall N (.op op mo)).erase = (AtomicBitset.impl N op).bind fun r => .ret (.prev r) := by
  have hord : BCall.order (.op op mo) = given mo := by cases mo <;> rfl
  rw [hord] at h
  exact bop_erase N op h

/-- **C130, publication.** Position `i` is clear at first and only one call sets it, with an order that releases; other threads do
what they like to the other positions, with any orders. Then that call, and all that its thread has done before, happens
before every call with an acquiring order whose result tells that `i` is set. -/
theorem C130_publication {N : Nat} (hw : StdWidth w) (hN : 0 < N) (hNw : N ≤ w) {c0 : BitVec w} {m : Nat} {val : Nat → BitVec w}
    {threads : List (List (Rec (BCall w) (Res w)))} (hx : History (bcall N) c0 m val threads)
    (hlegal : ∀ rs ∈ threads, ∀ r ∈ rs, r.call.Legal N) (i : Nat) (hi : i < N) (hclear : c0.getLsbD i = false)
    (t n : Nat) (r : Rec (BCall w) (Res w)) (hr : callAt threads t n = some r)
    (hset : ∃ f, r.call.effect i = some f ∧ f false = true) (hrel : Releasing r.call.order)
    (honly : ∀ t' n' r', callAt threads t' n' = some r' → r'.call.effect i ≠ none → t' = t ∧ n' = n)
    (t' n' : Nat) (r' : Rec (BCall w) (Res w)) (hr' : callAt threads t' n' = some r')
    (hacq : Acquiring r'.call.order) (htells : Tells i true r'.call r'.res) :
    HappensBefore (bcall N) threads t n t' n' ∧
      ∀ l q, callAt threads t l = some q → l < n → HappensBefore (bcall N) threads t l t' n' := by
  have facts := History.facts hw hN hNw hx hlegal
  obtain ⟨f, hf, hft⟩ := hset
  have F := facts t n r hr
  obtain ⟨j, hj⟩ : ∃ j, r.acc = .write j := by
    cases hacc : r.acc with
    | write j => exact ⟨j, rfl⟩
    | read p =>
      have := F.reads p hacc
      rw [BCall.effect_of_load this] at hf; cases hf
  have hjm : j < m := by
    obtain ⟨rs, h1, h2⟩ := callAt_mem hr
    exact (hx.bounded rs h1 r h2).1 j hj
  have hbit : ∀ p, p ≤ m → (val p).getLsbD i = decide (j < p) := by
    intro p
    induction p with
    | zero => intro _; rw [hx.initial, hclear]; simp
    | succ p ih =>
      intro hp
      have ih := ih (by omega)
      obtain ⟨u, l, q, hq, hqa⟩ := hx.writer p (by omega)
      have Q := (facts u l q hq).writes p hqa
      rw [Q.2 i hi]
      by_cases hE : q.call.effect i = none
      · rw [hE, ih, decide_eq_decide]
        have : p ≠ j := by
          rintro rfl
          obtain ⟨rfl, rfl⟩ := hx.unique hq hr hqa hj
          rw [hq] at hr; cases hr
          rw [hf] at hE; cases hE
        omega
      · obtain ⟨rfl, rfl⟩ := honly u l q hq hE
        rw [hq] at hr; cases hr
        rw [hqa] at hj; cases hj
        rw [hf]; simp [ih, hft]
  have F' := facts t' n' r' hr'
  have hpos : r'.acc.pos ≤ m := hx.pos_le hr'
  have hlt : j < r'.acc.pos := by
    have := F'.tells i true hi htells
    rw [hbit _ hpos] at this
    simpa using this
  have hne : r'.call.kind ≠ .store := by
    intro hk
    have hE := BCall.effect_of_store hk i
    obtain ⟨rfl, rfl⟩ := honly t' n' r' hr' hE
    rw [hr'] at hr; cases hr
    rw [hj] at hlt
    exact absurd hlt (by simp [Acc.pos])
  have hhb : HappensBefore (bcall N) threads t n t' n' := by
    refine .sync _ _ _ _ ⟨r, r', _, _, _, _, _, _, _, _, j, hr, hr', F.eq.choose_spec.choose_spec,
      F'.eq.choose_spec.choose_spec, (F.writes j hj).1, hrel.releases, hne, hacq.acquires, hj, hlt, ?_⟩
    intro p h1 _ u l q hq hqa
    have Q := facts u l q hq
    have hE : q.call.effect i = none := by
      refine Classical.byContradiction fun hE => ?_
      obtain ⟨rfl, rfl⟩ := honly u l q hq hE
      rw [hq] at hr; cases hr
      rw [hqa] at hj; cases hj
      omega
    have hk := BCall.rmw_of (Q.writes p hqa).1 hE
    obtain ⟨f, g, e⟩ := Q.eq
    exact ⟨_, _, _, by rw [e, hk]⟩
  refine ⟨hhb, fun l q hq hl => .trans _ _ _ _ _ _ (.same _ _ _ _ _ hq hr hl) hhb⟩

/-- Three threads of a bitset of 5, with position 4 set at first: the first sets position 1 with `release`; the second sets
another position, `relaxed`, and what it leaves is what the third reads. -/
def published : List (List (Rec (BCall 8) (Res 8))) :=
  [[⟨.op (.flip 3) (some .relaxed), .prev (some [16#8]), .write 0⟩,
    ⟨.op (.set 1 true) (some .release), .prev (some [24#8]), .write 1⟩],
   [⟨.op (.set 0 true) (some .relaxed), .prev (some [26#8]), .write 2⟩],
   [⟨.index 1, .flag false, .read 0⟩, ⟨.index 1, .flag true, .read 3⟩]]

theorem published_history : History (bcall 5) 16#8 3 (fun n => [16#8, 24#8, 26#8, 27#8].getD n 0#8) published := by
  refine .of_rules rfl ?_ (by decide)
  intro rs hrs r hr
  fin_cases hrs <;> fin_cases hr
  · exact ⟨_, _, _, _, rfl, rfl, .inr ⟨by decide, 0, rfl, rfl⟩⟩
  · exact ⟨_, _, _, _, rfl, rfl, .inr ⟨by decide, 1, rfl, rfl⟩⟩
  · exact ⟨_, _, _, _, rfl, rfl, .inr ⟨by decide, 2, rfl, rfl⟩⟩
  · exact ⟨_, _, _, _, rfl, rfl, .inl ⟨rfl, 0, rfl⟩⟩
  · exact ⟨_, _, _, _, rfl, rfl, .inl ⟨rfl, 3, rfl⟩⟩

/-- The flip of the first thread happens before the second look of the third. -/
example : HappensBefore (bcall 5) published 0 0 2 1 := by
  refine (C130_publication (N := 5) (.inl rfl) (by decide) (by decide) published_history ?_ 1 (by decide) rfl 0 1 _ rfl
    ⟨_, rfl, rfl⟩ (.inl rfl) ?_ 2 1 _ rfl (.inr (.inr rfl)) ⟨rfl, rfl⟩).2 0 _ rfl (by decide)
  · intro rs hrs r hr
    fin_cases hrs <;> fin_cases hr <;> simp [BCall.Legal, AtomicBitset.Op.Legal]
  · intro t n r h
    match t, n with
    | 0, 0 => cases h; intro h; exact absurd rfl h
    | 0, 1 => exact fun _ => ⟨rfl, rfl⟩
    | 0, _ + 2 => cases h
    | 1, 0 => cases h; intro h; exact absurd rfl h
    | 1, _ + 1 => cases h
    | 2, 0 => cases h; intro h; exact absurd rfl h
    | 2, 1 => cases h; intro h; exact absurd rfl h
    | 2, _ + 2 => cases h
    | _ + 3, _ => simp [callAt, published] at h

/-- A call of the histories below. -/
def setRelaxed : Rec (BCall 8) (Res 8) := ⟨.op (.set 1 true) (some .relaxed), .prev (some [0#8]), .write 0⟩

/-- A call of the histories below. -/
def look : Rec (BCall 8) (Res 8) := ⟨.index 1, .flag true, .read 1⟩

/-- **C130, relaxed orders do not publish.** There is a history where position 1 is only set by one call, with `relaxed`, and a
call with an acquiring order tells that it is set, but nothing of the first thread happens before anything of the second. -/
theorem C130_relaxed_not_enough : ∃ threads : List (List (Rec (BCall 8) (Res 8))), ∃ r r',
    History (bcall 5) 0#8 1 (fun n => [0#8, 2#8].getD n 0#8) threads ∧
    callAt threads 0 0 = some r ∧ r.call = .op (.set 1 true) (some .relaxed) ∧
    callAt threads 1 0 = some r' ∧ r'.call = .index 1 ∧ Tells 1 true r'.call r'.res ∧
    ∀ n n', ¬ HappensBefore (bcall 5) threads 0 n 1 n' := by
  refine ⟨[[setRelaxed], [look]], setRelaxed, look, ?_, rfl, rfl, rfl, rfl, ⟨rfl, rfl⟩, ?_⟩
  · refine .of_rules rfl ?_ (by decide)
    intro rs hrs r hr
    fin_cases hrs <;> fin_cases hr
    · exact ⟨_, _, _, _, rfl, rfl, .inr ⟨by decide, 0, rfl, rfl⟩⟩
    · exact ⟨_, _, _, _, rfl, rfl, .inl ⟨rfl, 1, rfl⟩⟩
  · have hat : ∀ t n r, callAt [[setRelaxed], [look]] t n = some r → n = 0 ∧ ((t = 0 ∧ r = setRelaxed) ∨ (t = 1 ∧ r = look)) := by
      intro t n r h
      match t, n with
      | 0, 0 => cases h; exact ⟨rfl, .inl ⟨rfl, rfl⟩⟩
      | 1, 0 => cases h; exact ⟨rfl, .inr ⟨rfl, rfl⟩⟩
      | 0, _ + 1 => cases h
      | 1, _ + 1 => cases h
      | _ + 2, _ => simp [callAt] at h
    have : ∀ t n t' n', ¬ HappensBefore (bcall 5) [[setRelaxed], [look]] t n t' n' := by
      intro t n t' n' h
      induction h with
      | same t n n' r r' h h' hn => have := (hat _ _ _ h').1; omega
      | sync t n t' n' h =>
        obtain ⟨r, r', k, o, f, c, k', o', f', c', j, h1, h2, h3, h4, h5, h6, h7, h8, h9, h10, h11⟩ := h
        rcases (hat _ _ _ h1).2 with ⟨-, rfl⟩ | ⟨-, rfl⟩
        · cases h3; cases h6
        · cases h9
      | trans _ _ _ _ _ _ _ _ ih => exact ih
    exact fun n n' => this 0 n 1 n'

/-- A call of the history below. -/
def setRelease : Rec (BCall 8) (Res 8) := ⟨.op (.set 1 true) (some .release), .prev (some [0#8]), .write 0⟩

/-- A call of the history below. -/
def loadRelaxed : Rec (BCall 8) (Res 8) := ⟨.op .load (some .relaxed), .prev (some [2#8]), .read 1⟩

/-- A call of the history below. -/
def storeRelaxed : Rec (BCall 8) (Res 8) := ⟨.op (.store [2#8]) (some .relaxed), .prev none, .write 1⟩

/-- A call of the history below. -/
def lookAgain : Rec (BCall 8) (Res 8) := ⟨.index 1, .flag true, .read 2⟩

/-- **C130, stores interrupt publication.** If a thread reads the set and stores what it has read, both `relaxed`, what was published
before is not published any more: the third thread is told that position 1 is set, by a call that acquires, but nothing of the
thread that has set it with `release` happens before. So the other calls have to leave the position alone, not only to
keep its value. -/
theorem C130_store_interrupts : ∃ threads : List (List (Rec (BCall 8) (Res 8))), ∃ r r',
    History (bcall 5) 0#8 2 (fun n => [0#8, 2#8, 2#8].getD n 0#8) threads ∧
    callAt threads 0 0 = some r ∧ r.call = .op (.set 1 true) (some .release) ∧
    callAt threads 2 0 = some r' ∧ r'.call = .index 1 ∧ Tells 1 true r'.call r'.res ∧
    ∀ n n', ¬ HappensBefore (bcall 5) threads 0 n 2 n' := by
  refine ⟨[[setRelease], [loadRelaxed, storeRelaxed], [lookAgain]], setRelease, lookAgain, ?_, rfl, rfl, rfl, rfl, ⟨rfl, rfl⟩, ?_⟩
  · refine .of_rules rfl ?_ (by decide)
    intro rs hrs r hr
    fin_cases hrs <;> fin_cases hr
    · exact ⟨_, _, _, _, rfl, rfl, .inr ⟨by decide, 0, rfl, rfl⟩⟩
    · exact ⟨_, _, _, _, rfl, rfl, .inl ⟨rfl, 1, rfl⟩⟩
    · exact ⟨_, _, _, _, rfl, rfl, .inr ⟨by decide, 1, rfl, rfl⟩⟩
    · exact ⟨_, _, _, _, rfl, rfl, .inl ⟨rfl, 2, rfl⟩⟩
  · have hat : ∀ t n r, callAt [[setRelease], [loadRelaxed, storeRelaxed], [lookAgain]] t n = some r →
        (t = 0 ∧ n = 0 ∧ r = setRelease) ∨ (t = 1 ∧ n = 0 ∧ r = loadRelaxed) ∨ (t = 1 ∧ n = 1 ∧ r = storeRelaxed) ∨ (t = 2 ∧ n = 0 ∧ r = lookAgain) := by
      intro t n r h
      match t, n with
      | 0, 0 => cases h; simp
      | 1, 0 => cases h; simp
      | 1, 1 => cases h; simp
      | 2, 0 => cases h; simp
      | 0, _ + 1 => cases h
      | 1, _ + 2 => cases h
      | 2, _ + 1 => cases h
      | _ + 3, _ => simp [callAt] at h
    have : ∀ t n t' n', HappensBefore (bcall 5) [[setRelease], [loadRelaxed, storeRelaxed], [lookAgain]] t n t' n' → t = 1 ∧ t' = 1 := by
      intro t n t' n' h
      induction h with
      | same t n n' r r' h h' hn =>
        rcases hat _ _ _ h with ⟨h1, h2, -⟩ | ⟨h1, h2, -⟩ | ⟨h1, h2, -⟩ | ⟨h1, h2, -⟩ <;>
          rcases hat _ _ _ h' with ⟨h3, h4, -⟩ | ⟨h3, h4, -⟩ | ⟨h3, h4, -⟩ | ⟨h3, h4, -⟩ <;> omega
      | sync t n t' n' h =>
        obtain ⟨r, r', k, o, f, c, k', o', f', c', j, h1, h2, h3, h4, h5, h6, h7, h8, h9, h10, h11⟩ := h
        have hs : r = setRelease := by
          rcases hat _ _ _ h1 with ⟨-, -, h⟩ | ⟨-, -, h⟩ | ⟨-, -, h⟩ | ⟨-, -, h⟩
          · exact h
          · rw [h] at h9; cases h9
          · rw [h] at h3; cases h3; cases h6
          · rw [h] at h9; cases h9
        have hb : r' = lookAgain := by
          rcases hat _ _ _ h2 with ⟨-, -, h⟩ | ⟨-, -, h⟩ | ⟨-, -, h⟩ | ⟨-, -, h⟩
          · rw [h] at h4; cases h4; cases h8
          · rw [h] at h4; cases h4; cases h8
          · rw [h] at h4; cases h4; cases h8
          · exact h
        subst hs hb
        cases h9
        obtain ⟨o, f, c, h⟩ := h11 1 (by decide) (by decide) 1 1 storeRelaxed rfl rfl
        cases h
      | trans _ _ _ _ _ _ _ _ ih ih' => exact ⟨ih.1, ih'.2⟩
    intro n n' h
    exact absurd (this _ _ _ _ h).1 (by decide)

/-- Setting position `i` as a lock. -/
def IsLock (i : Nat) (c : BCall w) : Prop := ∃ mo, c = .op (.set i true) mo

/-- Clearing position `i`. -/
def IsUnlock (i : Nat) (c : BCall w) : Prop := ∃ mo, c = .op (.reset i) mo ∨ c = .op (.set i false) mo

/-- The call has taken the lock: it has set the position and returns that it was clear. -/
def Took (i : Nat) (r : Rec (BCall w) (Res w)) : Prop := IsLock i r.call ∧ Tells i false r.call r.res

/-- Position `i` is used as a lock: it is only set with orders that acquire and cleared with orders that release, and a
thread clears it only if it has taken it and not cleared it since. All other calls leave it alone. -/
structure LockUse (i : Nat) (threads : List (List (Rec (BCall w) (Res w)))) : Prop where
  calls : ∀ t n r, callAt threads t n = some r → (IsLock i r.call ∧ Acquiring r.call.order) ∨
    (IsUnlock i r.call ∧ Releasing r.call.order) ∨ r.call.effect i = none
  holds : ∀ t k r, callAt threads t k = some r → IsUnlock i r.call →
    ∃ n r0, n < k ∧ callAt threads t n = some r0 ∧ Took i r0 ∧
      ∀ l r1, n < l → l < k → callAt threads t l = some r1 → ¬ IsUnlock i r1.call

/-- **C130, locks.** Each position is a lock of its own: if `i` is used as a lock, the other positions in any way by functions that
leave `i` alone, then of two calls that have taken the lock one happens after the thread of the other has cleared
it. -/
theorem C130_lock {N : Nat} (hw : StdWidth w) (hN : 0 < N) (hNw : N ≤ w) {c0 : BitVec w} {m : Nat} {val : Nat → BitVec w}
    {threads : List (List (Rec (BCall w) (Res w)))} (hx : History (bcall N) c0 m val threads)
    (hlegal : ∀ rs ∈ threads, ∀ r ∈ rs, r.call.Legal N) (i : Nat) (hi : i < N) (hclear : c0.getLsbD i = false)
    (hu : LockUse i threads) (t n t' n' : Nat) (r r' : Rec (BCall w) (Res w)) (hr : callAt threads t n = some r)
    (hr' : callAt threads t' n' = some r') (ht : Took i r) (ht' : Took i r') (hne : ¬ (t = t' ∧ n = n')) :
    (∃ k q, n < k ∧ callAt threads t k = some q ∧ IsUnlock i q.call ∧ HappensBefore (bcall N) threads t k t' n') ∨
      (∃ k q, n' < k ∧ callAt threads t' k = some q ∧ IsUnlock i q.call ∧ HappensBefore (bcall N) threads t' k t n) := by
  have facts := History.facts hw hN hNw hx hlegal
  -- the accesses of locking and unlocking
  have hlockw : ∀ t n r, callAt threads t n = some r → (IsLock i r.call ∨ IsUnlock i r.call) → ∃ j, r.acc = .write j := by
    intro t n r hr hc
    cases hacc : r.acc with
    | write j => exact ⟨j, rfl⟩
    | read p =>
      have := (facts t n r hr).reads p hacc
      rcases hc with ⟨mo, h⟩ | ⟨mo, h | h⟩ <;> rw [h] at this <;> cases this
  have hexcl : ∀ c : BCall w, IsLock i c → ¬ IsUnlock i c := by
    rintro c ⟨mo, rfl⟩ ⟨mo', h | h⟩ <;> cases h
  have heff : ∀ c : BCall w, (IsLock i c ∨ IsUnlock i c) → c.effect i ≠ none := by
    rintro c (⟨mo, rfl⟩ | ⟨mo, rfl | rfl⟩) <;> simp [BCall.effect, AtomicBitset.Op.effect]
  have hrmw : ∀ (p u l : Nat) q, callAt threads u l = some q → q.acc = .write p →
      ∃ o f c, bcall N q.call = .access .rmw o f c := by
    intro p u l q hq hqa
    have Q := facts u l q hq
    have hk : q.call.kind = .rmw := by
      rcases hu.calls u l q hq with ⟨⟨mo, h⟩, _⟩ | ⟨⟨mo, h | h⟩, _⟩ | h
      · rw [h]; rfl
      · rw [h]; rfl
      · rw [h]; rfl
      · exact BCall.rmw_of (Q.writes p hqa).1 h
    obtain ⟨f, g, e⟩ := Q.eq
    exact ⟨_, _, _, by rw [e, hk]⟩
  let Taken (p t n : Nat) : Prop := ∃ r j, callAt threads t n = some r ∧ Took i r ∧ r.acc = .write j ∧ j < p
  let Freed (p t n : Nat) : Prop := ∃ k q j, n < k ∧ callAt threads t k = some q ∧ IsUnlock i q.call ∧ q.acc = .write j ∧ j < p
  have inv : ∀ p, p ≤ m → ((val p).getLsbD i = false → ∀ t n, Taken p t n → Freed p t n) ∧
      (∀ t n t' n', Taken p t n → Taken p t' n' → ¬ Freed p t n → ¬ Freed p t' n' → t = t' ∧ n = n') := by
    intro p
    induction p with
    | zero =>
      intro _
      exact ⟨fun _ t n ⟨_, _, _, _, _, h⟩ => absurd h (Nat.not_lt_zero _),
        fun t n _ _ ⟨_, _, _, _, _, h⟩ => absurd h (Nat.not_lt_zero _)⟩
    | succ p ih =>
      intro hp
      obtain ⟨ih1, ih2⟩ := ih (by omega)
      obtain ⟨u, l, q, hq, hqa⟩ := hx.writer p (by omega)
      have Q := facts u l q hq
      have mono : ∀ t n, Freed p t n → Freed (p + 1) t n :=
        fun t n ⟨k, q, j, h1, h2, h3, h4, h5⟩ => ⟨k, q, j, h1, h2, h3, h4, by omega⟩
      -- what is taken by now was taken before, or by this call
      have hT : ∀ t n, Taken (p + 1) t n → Taken p t n ∨ (t = u ∧ n = l ∧ Took i q) := by
        rintro t n ⟨r, j, h1, h2, h3, h4⟩
        by_cases hjp : j = p
        · subst hjp
          obtain ⟨rfl, rfl⟩ := hx.unique h1 hq h3 hqa
          rw [h1] at hq; cases hq
          exact .inr ⟨rfl, rfl, h2⟩
        · exact .inl ⟨r, j, h1, h2, h3, by omega⟩
      rcases hu.calls u l q hq with ⟨hl, _⟩ | ⟨hul, _⟩ | hE
      · -- a call that sets the position
        have hb : (val (p + 1)).getLsbD i = true := by
          rw [(Q.writes p hqa).2 i hi]
          obtain ⟨mo, h⟩ := hl
          rw [h]; simp [BCall.effect, AtomicBitset.Op.effect]
        refine ⟨fun h => (by rw [hb] at h; cases h), fun t n t' n' h1 h2 h3 h4 => ?_⟩
        rcases hT t n h1 with h1 | ⟨rfl, rfl, hk⟩
        · rcases hT t' n' h2 with h2 | ⟨rfl, rfl, hk⟩
          · exact ih2 t n t' n' h1 h2 (fun h => h3 (mono _ _ h)) (fun h => h4 (mono _ _ h))
          · have := Q.tells i false hi hk.2
            rw [hqa] at this
            exact absurd (mono _ _ (ih1 this t n h1)) h3
        · rcases hT t' n' h2 with h2 | ⟨rfl, rfl, _⟩
          · have := Q.tells i false hi hk.2
            rw [hqa] at this
            exact absurd (mono _ _ (ih1 this t' n' h2)) h4
          · exact ⟨rfl, rfl⟩
      · -- a call that clears it
        have hT' : ∀ t n, Taken (p + 1) t n → Taken p t n := by
          intro t n h
          rcases hT t n h with h | ⟨_, _, hk⟩
          · exact h
          · exact absurd hul (hexcl _ hk.1)
        obtain ⟨n0, r0, hn0, hr0, htk, hno⟩ := hu.holds u l q hq hul
        obtain ⟨j0, hj0⟩ := hlockw u n0 r0 hr0 (.inl htk.1)
        have hj0p : j0 < p := by
          have := hx.ordered hr0 hq hn0
          rw [hj0, hqa] at this
          exact this
        have hheld : Taken p u n0 := ⟨r0, j0, hr0, htk, hj0, hj0p⟩
        have hnf : ¬ Freed p u n0 := by
          rintro ⟨k, q', j, h1, h2, h3, h4, h5⟩
          rcases Nat.lt_trichotomy k l with h6 | h6 | h6
          · exact hno k q' h1 h6 h2 h3
          · subst h6
            rw [hq] at h2; cases h2
            rw [hqa] at h4; cases h4
            omega
          · have := hx.ordered hq h2 h6
            rw [hqa, h4] at this
            exact absurd this (by simp [Coherent]; omega)
        have hall : ∀ t n, Taken (p + 1) t n → Freed (p + 1) t n := by
          intro t n h
          by_cases hf : Freed p t n
          · exact mono _ _ hf
          · obtain ⟨rfl, rfl⟩ := ih2 t n u n0 (hT' t n h) hheld hf hnf
            exact ⟨l, q, p, hn0, hq, hul, hqa, by omega⟩
        exact ⟨fun _ => hall, fun t n t' n' h1 _ h3 _ => absurd (hall t n h1) h3⟩
      · -- a call that leaves it alone
        have hT' : ∀ t n, Taken (p + 1) t n → Taken p t n := by
          intro t n h
          rcases hT t n h with h | ⟨_, _, hk⟩
          · exact h
          · exact absurd hE (heff _ (.inl hk.1))
        have hb : (val (p + 1)).getLsbD i = (val p).getLsbD i := by
          rw [(Q.writes p hqa).2 i hi, hE]
        rw [hb]
        exact ⟨fun h t n h1 => mono _ _ (ih1 h t n (hT' t n h1)), fun t n t' n' h1 h2 h3 h4 =>
          ih2 t n t' n' (hT' _ _ h1) (hT' _ _ h2) (fun h => h3 (mono _ _ h)) (fun h => h4 (mono _ _ h))⟩
  -- the later of the two calls
  have main : ∀ (t n t' n' : Nat) (r r' : Rec (BCall w) (Res w)) (j j' : Nat), callAt threads t n = some r →
      callAt threads t' n' = some r' → Took i r → Took i r' → r.acc = .write j → r'.acc = .write j' → j < j' →
      ∃ k q, n < k ∧ callAt threads t k = some q ∧ IsUnlock i q.call ∧ HappensBefore (bcall N) threads t k t' n' := by
    intro t n t' n' r r' j j' hr hr' ht ht' hj hj' hlt
    have F' := facts t' n' r' hr'
    have hjm : j' ≤ m := by have := hx.pos_le hr'; rw [hj'] at this; exact this
    have hcl := F'.tells i false hi ht'.2
    rw [hj'] at hcl
    obtain ⟨k, q, p, h1, h2, h3, h4, h5⟩ := (inv j' hjm).1 hcl t n ⟨r, j, hr, ht, hj, hlt⟩
    have Q := facts t k q h2
    refine ⟨k, q, h1, h2, h3, .sync _ _ _ _ ⟨q, r', _, _, _, _, _, _, _, _, p, h2, hr', Q.eq.choose_spec.choose_spec,
      F'.eq.choose_spec.choose_spec, (Q.writes p h4).1, ?_, ?_, ?_, h4, by rw [hj']; exact h5, ?_⟩⟩
    · rcases hu.calls t k q h2 with ⟨h, _⟩ | ⟨_, h⟩ | h
      · exact absurd h3 (hexcl _ h)
      · exact h.releases
      · exact absurd h (heff _ (.inr h3))
    · obtain ⟨mo, h⟩ := ht'.1
      rw [h]; simp [BCall.kind, opKind]
    · rcases hu.calls t' n' r' hr' with ⟨_, h⟩ | ⟨h, _⟩ | h
      · exact h.acquires
      · exact absurd h (hexcl _ ht'.1)
      · exact absurd h (heff _ (.inl ht'.1))
    · intro p' _ _ u l q' hq' hqa'
      exact hrmw p' u l q' hq' hqa'
  obtain ⟨j, hj⟩ := hlockw t n r hr (.inl ht.1)
  obtain ⟨j', hj'⟩ := hlockw t' n' r' hr' (.inl ht'.1)
  rcases Nat.lt_trichotomy j j' with h | h | h
  · exact .inl (main t n t' n' r r' j j' hr hr' ht ht' hj hj' h)
  · subst h
    exact absurd (hx.unique hr hr' hj hj') hne
  · exact .inr (main t' n' t n r' r j' j hr' hr ht' ht hj' hj h)

/-- Two threads with position 2 as a lock: the second tries in vain, then takes it when the first has cleared it; in the meantime the
first sets another position. -/
def locked : List (List (Rec (BCall 8) (Res 8))) :=
  [[⟨.op (.set 2 true) (some .acquire), .prev (some [0#8]), .write 0⟩, ⟨.op (.reset 2) (some .release), .prev (some [4#8]), .write 2⟩,
    ⟨.op (.set 0 true) (some .relaxed), .prev (some [0#8]), .write 3⟩],
   [⟨.op (.set 2 true) (some .acquire), .prev (some [4#8]), .write 1⟩, ⟨.op (.set 2 true) none, .prev (some [1#8]), .write 4⟩]]

theorem locked_history : History (bcall 5) 0#8 5 (fun n => [0#8, 4#8, 4#8, 0#8, 1#8, 5#8].getD n 0#8) locked := by
  refine .of_rules rfl ?_ (by decide)
  intro rs hrs r hr
  fin_cases hrs <;> fin_cases hr
  · exact ⟨_, _, _, _, rfl, rfl, .inr ⟨by decide, 0, rfl, rfl⟩⟩
  · exact ⟨_, _, _, _, rfl, rfl, .inr ⟨by decide, 2, rfl, rfl⟩⟩
  · exact ⟨_, _, _, _, rfl, rfl, .inr ⟨by decide, 3, rfl, rfl⟩⟩
  · exact ⟨_, _, _, _, rfl, rfl, .inr ⟨by decide, 1, rfl, rfl⟩⟩
  · exact ⟨_, _, _, _, rfl, rfl, .inr ⟨by decide, 4, rfl, rfl⟩⟩

theorem locked_use : LockUse 2 locked := by
  constructor
  · intro t n r h
    match t, n with
    | 0, 0 => cases h; exact .inl ⟨⟨_, rfl⟩, .inl rfl⟩
    | 0, 1 => cases h; exact .inr (.inl ⟨⟨_, .inl rfl⟩, .inl rfl⟩)
    | 0, 2 => cases h; exact .inr (.inr rfl)
    | 0, _ + 3 => cases h
    | 1, 0 => cases h; exact .inl ⟨⟨_, rfl⟩, .inl rfl⟩
    | 1, 1 => cases h; exact .inl ⟨⟨_, rfl⟩, .inr (.inr rfl)⟩
    | 1, _ + 2 => cases h
    | _ + 2, _ => simp [callAt, locked] at h
  · intro t n r h hu
    match t, n with
    | 0, 1 => exact ⟨0, _, by decide, rfl, ⟨⟨_, rfl⟩, rfl⟩, fun l _ h1 h2 => by omega⟩
    | 0, 0 => cases h; obtain ⟨_, h | h⟩ := hu <;> cases h
    | 0, 2 => cases h; obtain ⟨_, h | h⟩ := hu <;> cases h
    | 0, _ + 3 => cases h
    | 1, 0 => cases h; obtain ⟨_, h | h⟩ := hu <;> cases h
    | 1, 1 => cases h; obtain ⟨_, h | h⟩ := hu <;> cases h
    | 1, _ + 2 => cases h
    | _ + 2, _ => simp [callAt, locked] at h

example : ∃ k q, 0 < k ∧ callAt locked 0 k = some q ∧ IsUnlock 2 q.call ∧ HappensBefore (bcall 5) locked 0 k 1 1 := by
  rcases C130_lock (N := 5) (.inl rfl) (by decide) (by decide) locked_history (by
    intro rs hrs r hr
    fin_cases hrs <;> fin_cases hr <;> simp [BCall.Legal, AtomicBitset.Op.Legal]) 2 (by decide) rfl locked_use
    0 0 1 1 _ _ rfl rfl ⟨⟨_, rfl⟩, rfl⟩ ⟨⟨_, rfl⟩, rfl⟩ (by decide) with h | ⟨k, q, h1, h2, -⟩
  · exact h
  · match k with
    | 0 => cases h1
    | 1 => exact absurd h1 (by decide)
    | _ + 2 => cases h2

end Verif.Sync
