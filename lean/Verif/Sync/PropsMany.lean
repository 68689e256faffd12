import Verif.Sync.Many

/-!
# Data shared by means of several atomics (C138)
-/

namespace Verif.Sync

open Verif.Conc Verif.BitOps

variable {κ γ δ : Type} {D : Decls κ γ} [DecidableEq κ] [DecidableEq γ]

/-! ## Specification -/

/-- The widths and sizes are those of `atomic_bitset`s, the configurations those of `atomic`s. -/
structure Decls.Ok (D : Decls κ γ) : Prop where
  width : ∀ k, StdWidth (D.w k)
  pos : ∀ k, 0 < D.N k
  fits : ∀ k, D.N k ≤ D.w k
  elem : ∀ a, (D.C a).w ≤ (D.C a).e

/-- All calls of bitsets meet their preconditions. -/
def Legal (threads : List (List (Event D δ))) : Prop :=
  ∀ t n k r, eventAt threads t n = some (.bits k r) → r.call.Legal (D.N k)

/-- Event `n` of thread `t` hands something over to thread `t'`, which notices with its event `n'`: it sets a position of some bitset that was
clear and is set by no other call, or makes the only change of some atomic, with an order that releases; the other thread is told of
it by a call with an order that acquires.  Or that thread hands it over, later, to another one. -/
inductive HandsOver (c0 : (k : κ) → BitVec (D.w k)) (v0 : (a : γ) → BitVec (D.C a).w) (threads : List (List (Event D δ))) :
    Nat → Nat → Nat → Nat → Prop
  | bits {t n t' n' k r r' i} (hi : i < D.N k) (hclear : (c0 k).getLsbD i = false)
      (h : eventAt threads t n = some (.bits k r)) (hset : ∃ f, r.call.effect i = some f ∧ f false = true)
      (hrel : Releasing r.call.order)
      (honly : ∀ u l q, eventAt threads u l = some (.bits k q) → q.call.effect i ≠ none → u = t ∧ l = n)
      (h' : eventAt threads t' n' = some (.bits k r')) (hacq : Acquiring r'.call.order) (htells : Tells i true r'.call r'.res) :
      HandsOver c0 v0 threads t n t' n'
  | num {t n t' n' a r mo v c} (h : eventAt threads t n = some (.num a r))
      (hrel : Releasing (aorder D.dflt r.call.1 r.call.2))
      (honly : ∀ u l q, eventAt threads u l = some (.num a q) → q.call.1 ≠ .load → u = t ∧ l = n)
      (h' : eventAt threads t' n' = some (.num a ⟨(.load, mo), some v, c⟩))
      (hacq : mo = none ∨ ∃ o, mo = some o ∧ Acquiring o) (hv : v ≠ v0 a) : HandsOver c0 v0 threads t n t' n'
  | onwards {t n t' n' l t'' n''} (h : HandsOver c0 v0 threads t n t' n') (hl : n' ≤ l)
      (h' : HandsOver c0 v0 threads t' l t'' n'') : HandsOver c0 v0 threads t n t'' n''

/-- Event `a` of thread `t` is while the thread holds the lock that is position `i` of bitset `k`: the thread has taken it and not cleared
it since. -/
def Holding (threads : List (List (Event D δ))) (k : κ) (i t a : Nat) : Prop :=
  ∃ n r, n < a ∧ eventAt threads t n = some (.bits k r) ∧ Took i r ∧
    ∀ l q, n < l → l < a → eventAt threads t l = some (.bits k q) → ¬ IsUnlock i q.call

/-- Two accesses to the same data, at least one of which writes, that are not ordered: a data race. -/
def Race (threads : List (List (Event D δ))) (d : δ) : Prop :=
  ∃ t a x t' b y, eventAt threads t a = some (.plain d x) ∧ eventAt threads t' b = some (.plain d y) ∧ (x = true ∨ y = true) ∧
    ¬ (t = t' ∧ a = b) ∧ ¬ HB threads t a t' b ∧ ¬ HB threads t' b t a

/-! ## Lemmas -/

theorem filterMap_at {ε ρ : Type} (f : ε → Option ρ) (l : List ε) : ∀ (m : Nat) (b : ρ), (l.filterMap f)[m]? = some b →
    ∃ n a, l[n]? = some a ∧ f a = some b ∧ ((l.take n).filterMap f).length = m := by
  induction l with
  | nil => intro m b h; simp at h
  | cons x l ih =>
    intro m b h
    cases hx : f x with
    | none =>
      rw [List.filterMap_cons_none hx] at h
      obtain ⟨n, a, h1, h2, h3⟩ := ih m b h
      exact ⟨n + 1, a, h1, h2, by rw [List.take_succ_cons, List.filterMap_cons_none hx, h3]⟩
    | some y =>
      rw [List.filterMap_cons_some hx] at h
      cases m with
      | zero => exact ⟨0, x, rfl, by simpa [hx] using h, rfl⟩
      | succ m =>
        obtain ⟨n, a, h1, h2, h3⟩ := ih m b (by simpa using h)
        exact ⟨n + 1, a, h1, h2, by rw [List.take_succ_cons, List.filterMap_cons_some hx, List.length_cons, h3]⟩

theorem filterMap_of {ε ρ : Type} (f : ε → Option ρ) (l : List ε) : ∀ (n : Nat) (a : ε) (b : ρ), l[n]? = some a → f a = some b →
    (l.filterMap f)[((l.take n).filterMap f).length]? = some b := by
  induction l with
  | nil => intro n a b h; simp at h
  | cons x l ih =>
    intro n a b h hf
    cases n with
    | zero => simp at h; subst h; rw [List.filterMap_cons_some hf]; simp
    | succ n =>
      have := ih n a b (by simpa using h) hf
      cases hx : f x with
      | none => rw [List.take_succ_cons, List.filterMap_cons_none hx, List.filterMap_cons_none hx]; exact this
      | some y => rw [List.take_succ_cons, List.filterMap_cons_some hx, List.filterMap_cons_some hx]; simpa using this

section generic

variable {ε C ρ : Type} {f : ε → Option (Rec C ρ)} {threads : List (List ε)}

theorem callAt_part {t m : Nat} {r : Rec C ρ} (h : callAt (part f threads) t m = some r) :
    ∃ n e, eventAt threads t n = some e ∧ f e = some r ∧ before f threads t n = m := by
  unfold callAt part at h
  rw [List.getElem?_map] at h
  cases ht : threads[t]? with
  | none => rw [ht] at h; simp at h
  | some l =>
    rw [ht] at h
    obtain ⟨n, a, h1, h2, h3⟩ := filterMap_at f l m r (by simpa using h)
    exact ⟨n, a, by simp [eventAt, ht, h1], h2, by simp [before, List.getD, ht, h3]⟩

theorem part_callAt {t n : Nat} {e : ε} {r : Rec C ρ} (h : eventAt threads t n = some e) (hf : f e = some r) :
    callAt (part f threads) t (before f threads t n) = some r := by
  unfold eventAt at h
  cases ht : threads[t]? with
  | none => rw [ht] at h; simp at h
  | some l =>
    rw [ht] at h
    have := filterMap_of f l n e r (by simpa using h) hf
    simp [callAt, part, before, List.getD, ht, this]

theorem before_mono {t n n' : Nat} (h : n ≤ n') : before f threads t n ≤ before f threads t n' := by
  unfold before
  have : ((threads.getD t []).take n).Sublist ((threads.getD t []).take n') := by
    have e : (threads.getD t []).take n = ((threads.getD t []).take n').take n := by rw [List.take_take]; congr 1; omega
    rw [e]; exact List.take_sublist _ _
  exact (this.filterMap f).length_le

theorem before_lt {t n n' : Nat} {e : ε} {r : Rec C ρ} (h : eventAt threads t n = some e) (hf : f e = some r) (hn : n < n') :
    before f threads t n < before f threads t n' := by
  refine Nat.lt_of_lt_of_le ?_ (before_mono (n := n + 1) hn)
  unfold eventAt at h
  cases ht : threads[t]? with
  | none => rw [ht] at h; simp at h
  | some l =>
    rw [ht] at h
    have hl : l[n]? = some e := by simpa using h
    unfold before
    simp only [List.getD, ht, Option.getD_some]
    rw [List.take_add_one, hl]
    simp [hf]

theorem lt_of_before {t n n' : Nat} (h : before f threads t n < before f threads t n') : n < n' := by
  refine Classical.byContradiction fun hn => ?_
  have := before_mono (f := f) (threads := threads) (t := t) (Nat.le_of_not_lt hn)
  omega

/-- Two calls of an object that are the same of its calls are the same event. -/
theorem before_inj {t n n' : Nat} {e e' : ε} {r r' : Rec C ρ} (h : eventAt threads t n = some e) (hf : f e = some r)
    (h' : eventAt threads t n' = some e') (hf' : f e' = some r') (hb : before f threads t n = before f threads t n') : n = n' := by
  rcases Nat.lt_trichotomy n n' with hl | hl | hl
  · have := before_lt h hf hl; omega
  · exact hl
  · have := before_lt h' hf' hl; omega

theorem hb_calls {w : Nat} {impl : C → LProg w ρ} {th : List (List (Rec C ρ))} {t n t' n' : Nat}
    (h : HappensBefore impl th t n t' n') : (∃ r, callAt th t n = some r) ∧ ∃ r, callAt th t' n' = some r := by
  induction h with
  | same _ _ _ r r' h h' _ => exact ⟨⟨r, h⟩, ⟨r', h'⟩⟩
  | sync _ _ _ _ h => obtain ⟨r, r', _, _, _, _, _, _, _, _, _, h1, h2, _⟩ := h; exact ⟨⟨r, h1⟩, ⟨r', h2⟩⟩
  | trans _ _ _ _ _ _ _ _ ih ih' => exact ⟨ih.1, ih'.2⟩

end generic

theorem bits?_some {k : κ} {e : Event D δ} {r : Rec (BCall (D.w k)) (Res (D.w k))} (h : e.bits? k = some r) : e = .bits k r := by
  cases e with
  | bits k' r' =>
    simp only [Event.bits?] at h
    split at h
    · rename_i hk; subst hk; cases h; rfl
    · cases h
  | num => cases h
  | plain => cases h

theorem num?_some {a : γ} {e : Event D δ} {r : Rec (ACall (D.C a)) (Option (BitVec (D.C a).w))} (h : e.num? a = some r) :
    e = .num a r := by
  cases e with
  | num k' r' =>
    simp only [Event.num?] at h
    split at h
    · rename_i hk; subst hk; cases h; rfl
    · cases h
  | bits => cases h
  | plain => cases h

theorem bits?_eq (k : κ) (r : Rec (BCall (D.w k)) (Res (D.w k))) : (Event.bits k r : Event D δ).bits? k = some r := by
  simp [Event.bits?]

theorem num?_eq (a : γ) (r : Rec (ACall (D.C a)) (Option (BitVec (D.C a).w))) : (Event.num a r : Event D δ).num? a = some r := by
  simp [Event.num?]

/-- What happens before within the calls of one bitset does so among all events. -/
theorem hb_bits {threads : List (List (Event D δ))} {k : κ} {t m t' m' : Nat}
    (h : HappensBefore (bcall (D.N k)) (part (Event.bits? k) threads) t m t' m') :
    ∀ {n n' r r'}, eventAt threads t n = some (.bits k r) → before (Event.bits? k) threads t n = m →
      eventAt threads t' n' = some (.bits k r') → before (Event.bits? k) threads t' n' = m' → HB threads t n t' n' := by
  induction h with
  | same t m m' r r' h h' hn =>
    intro n n' q q' h1 h2 h3 h4
    exact .same _ _ _ _ _ h1 h3 (lt_of_before (by rw [h2, h4]; exact hn))
  | sync t m t' m' h =>
    intro n n' q q' h1 h2 h3 h4
    subst h2 h4
    exact .bits k _ _ _ _ _ _ h1 h3 h
  | trans t m t' m' t'' m'' h h' ih ih' =>
    intro n n' q q' h1 h2 h3 h4
    obtain ⟨r, hr⟩ := (hb_calls h).2
    obtain ⟨l, e, e1, e2, e3⟩ := callAt_part hr
    rw [bits?_some e2] at e1
    exact .trans _ _ _ _ _ _ (ih h1 h2 e1 e3) (ih' e1 e3 h3 h4)

/-- What happens before within the calls of one atomic does so among all events. -/
theorem hb_num {threads : List (List (Event D δ))} {a : γ} {t m t' m' : Nat}
    (h : HappensBefore (aimpl (D.C a) D.dflt) (part (Event.num? a) threads) t m t' m') :
    ∀ {n n' r r'}, eventAt threads t n = some (.num a r) → before (Event.num? a) threads t n = m →
      eventAt threads t' n' = some (.num a r') → before (Event.num? a) threads t' n' = m' → HB threads t n t' n' := by
  induction h with
  | same t m m' r r' h h' hn =>
    intro n n' q q' h1 h2 h3 h4
    exact .same _ _ _ _ _ h1 h3 (lt_of_before (by rw [h2, h4]; exact hn))
  | sync t m t' m' h =>
    intro n n' q q' h1 h2 h3 h4
    subst h2 h4
    exact .num a _ _ _ _ _ _ h1 h3 h
  | trans t m t' m' t'' m'' h h' ih ih' =>
    intro n n' q q' h1 h2 h3 h4
    obtain ⟨r, hr⟩ := (hb_calls h).2
    obtain ⟨l, e, e1, e2, e3⟩ := callAt_part hr
    rw [num?_some e2] at e1
    exact .trans _ _ _ _ _ _ (ih h1 h2 e1 e3) (ih' e1 e3 h3 h4)

theorem part_legal {threads : List (List (Event D δ))} (hl : Legal threads) (k : κ) :
    ∀ rs ∈ part (Event.bits? k) threads, ∀ r ∈ rs, r.call.Legal (D.N k) := by
  intro rs hrs r hr
  obtain ⟨t, ht⟩ := List.getElem?_of_mem hrs
  obtain ⟨m, hm⟩ := List.getElem?_of_mem hr
  obtain ⟨n, e, e1, e2, _⟩ := callAt_part (f := Event.bits? k) (threads := threads) (t := t) (m := m) (r := r) (by simp [callAt, ht, hm])
  rw [bits?_some e2] at e1
  exact hl t n k r e1

theorem hb_from {threads : List (List (Event D δ))} {t n t' n' l l' : Nat} {e e' : Event D δ} {x x' : Event D δ}
    (h : HB threads t n t' n') (hx : eventAt threads t n = some x) (hx' : eventAt threads t' n' = some x')
    (he : eventAt threads t l = some e) (he' : eventAt threads t' l' = some e') (hl : l ≤ n) (hl' : n' ≤ l') : HB threads t l t' l' := by
  have h1 : HB threads t l t' n' := by
    rcases Nat.lt_or_eq_of_le hl with hl | rfl
    · exact .trans _ _ _ _ _ _ (.same _ _ _ _ _ he hx hl) h
    · exact h
  rcases Nat.lt_or_eq_of_le hl' with hl' | rfl
  · exact .trans _ _ _ _ _ _ h1 (.same _ _ _ _ _ hx' he' hl')
  · exact h1

/-! ## Theorems -/

/-- **C138, handing over.** In every execution of any number of threads, with any number of bitsets and atomics and any other use of
them: when a thread hands over to another, directly or through further threads and through any of the objects, then all that the
first has done until then, be it atomic or not, happens before all that the last does from then on. -/
theorem C138_hand_over (hD : D.Ok) {c0 : (k : κ) → BitVec (D.w k)} {v0 : (a : γ) → BitVec (D.C a).w}
    {threads : List (List (Event D δ))} (hx : Histories c0 v0 threads) (hl : Legal threads) {t n t' n' : Nat}
    (h : HandsOver c0 v0 threads t n t' n') {l l' : Nat} {e e' : Event D δ} (he : eventAt threads t l = some e)
    (he' : eventAt threads t' l' = some e') (hln : l ≤ n) (hnl : n' ≤ l') : HB threads t l t' l' := by
  have main : (∃ x, eventAt threads t n = some x) ∧ (∃ x, eventAt threads t' n' = some x) ∧ HB threads t n t' n' := by
    clear he he' hln hnl
    induction h with
    | @bits t n t' n' k r r' i hi hclear h hset hrel honly h' hacq htells =>
      obtain ⟨m, val, hh⟩ := hx.bits k
      refine ⟨⟨_, h⟩, ⟨_, h'⟩, hb_bits (C130_publication (hD.width k) (hD.pos k) (hD.fits k) hh (part_legal hl k) i hi hclear t _ r
        (part_callAt h (bits?_eq k r)) hset hrel ?_ t' _ r' (part_callAt h' (bits?_eq k r')) hacq htells).1 h rfl h' rfl⟩
      intro u p q hq hE
      obtain ⟨b, e, e1, e2, e3⟩ := callAt_part hq
      rw [bits?_some e2] at e1
      obtain ⟨rfl, rfl⟩ := honly u b q e1 hE
      exact ⟨rfl, e3.symm⟩
    | @num t n t' n' a r mo v c h hrel honly h' hacq hv =>
      obtain ⟨m, val, hh⟩ := hx.num a
      refine ⟨⟨_, h⟩, ⟨_, h'⟩, hb_num (C130_atomic_publication (D.C a) (hD.elem a) D.dflt (v0 a) hh t _ r
        (part_callAt h (num?_eq a r)) hrel ?_ t' _ mo v c (part_callAt h' (num?_eq a _)) hacq hv).1 h rfl h' rfl⟩
      intro u p q hq hE
      obtain ⟨b, e, e1, e2, e3⟩ := callAt_part hq
      rw [num?_some e2] at e1
      obtain ⟨rfl, rfl⟩ := honly u b q e1 hE
      exact ⟨rfl, e3.symm⟩
    | onwards h hl h' ih ih' =>
      obtain ⟨a, ⟨x, hx'⟩, c⟩ := ih
      obtain ⟨⟨y, hy⟩, b, d⟩ := ih'
      exact ⟨a, b, .trans _ _ _ _ _ _ c (hb_from d hy b.choose_spec hx' b.choose_spec hl (Nat.le_refl _))⟩
  obtain ⟨⟨x, hx1⟩, ⟨y, hy⟩, hb⟩ := main
  exact hb_from hb hx1 hy he he' hln hnl

/-- **C138, data behind a lock.** If a position of some bitset is used as a lock and some data is accessed only by threads that hold
it, there is no data race on it, whatever else the threads do. -/
theorem C138_lock_data (hD : D.Ok) {c0 : (k : κ) → BitVec (D.w k)} {v0 : (a : γ) → BitVec (D.C a).w}
    {threads : List (List (Event D δ))} (hx : Histories c0 v0 threads) (hl : Legal threads) (k : κ) (i : Nat) (hi : i < D.N k)
    (hclear : (c0 k).getLsbD i = false) (hu : LockUse i (part (Event.bits? k) threads)) (d : δ)
    (hd : ∀ t a x, eventAt threads t a = some (.plain d x) → Holding threads k i t a) : ¬ Race threads d := by
  rintro ⟨t, a, x, t', b, y, ha, hb, -, hne, h1, h2⟩
  obtain ⟨m, val, hh⟩ := hx.bits k
  have one : ∀ t a t' b x y n r, eventAt threads t a = some (.plain d x) → eventAt threads t' b = some (.plain d y) →
      eventAt threads t n = some (.bits k r) → n < a →
      (∀ l q, n < l → l < a → eventAt threads t l = some (.bits k q) → ¬ IsUnlock i q.call) → ∀ n' r', n' < b →
      eventAt threads t' n' = some (.bits k r') → (∃ p q, before (Event.bits? k) threads t n < p ∧
        callAt (part (Event.bits? k) threads) t p = some q ∧ IsUnlock i q.call ∧
        HappensBefore (bcall (D.N k)) (part (Event.bits? k) threads) t p t' (before (Event.bits? k) threads t' n')) →
      HB threads t a t' b := by
    rintro t a t' b x y n r ha hb hn hlt hno n' r' hlt' hn' ⟨p, q, hp, hq, hun, hhb⟩
    obtain ⟨l, e, e1, e2, e3⟩ := callAt_part hq
    rw [bits?_some e2] at e1
    have hnl : n < l := lt_of_before (f := Event.bits? k) (threads := threads) (t := t) (by rw [e3]; exact hp)
    have hal : a < l := by
      rcases Nat.lt_trichotomy l a with h | h | h
      · exact absurd hun (hno l q hnl h e1)
      · subst h; rw [ha] at e1; cases e1
      · exact h
    exact hb_from (hb_bits hhb e1 e3 hn' rfl) e1 hn' ha hb (Nat.le_of_lt hal) (Nat.le_of_lt hlt')
  obtain ⟨n, r, hn1, hn2, hn3, hn4⟩ := hd t a x ha
  obtain ⟨n', r', hn1', hn2', hn3', hn4'⟩ := hd t' b y hb
  by_cases hsame : t = t' ∧ before (Event.bits? k) threads t n = before (Event.bits? k) threads t' n'
  · obtain ⟨rfl, _⟩ := hsame
    rcases Nat.lt_trichotomy a b with h | h | h
    · exact h1 (.same _ _ _ _ _ ha hb h)
    · exact hne ⟨rfl, h⟩
    · exact h2 (.same _ _ _ _ _ hb ha h)
  · rcases C130_lock (hD.width k) (hD.pos k) (hD.fits k) hh (part_legal hl k) i hi hclear hu t _ t' _ r r'
      (part_callAt hn2 (bits?_eq k r)) (part_callAt hn2' (bits?_eq k r')) hn3 hn3' hsame with h | h
    · exact h1 (one t a t' b x y n r ha hb hn2 hn1 hn4 n' r' hn1' hn2' h)
    · exact h2 (one t' b t a y x n' r' hb ha hn2' hn1' hn4' n r hn1 hn2 h)

/-- **C138, counted references.** If an atomic counts references, each of them given up once, then whatever threads have done before giving
up theirs happens before whatever the one that gave up the last does from then on: it can destroy what they shared. -/
theorem C138_last_reference (hD : D.Ok) (hd : D.dflt = .seqCst ∨ D.dflt = .acqRel) {c0 : (k : κ) → BitVec (D.w k)}
    {v0 : (a : γ) → BitVec (D.C a).w} {threads : List (List (Event D δ))} (hx : Histories c0 v0 threads) (a : γ)
    (hcalls : ∀ t n r, eventAt threads t n = some (.num a r) → IsDec r.call ∨ r.call.1 = .load)
    (hm : ∀ ds : List (Nat × Nat), ds.Nodup → (∀ q ∈ ds, ∃ r, eventAt threads q.1 q.2 = some (.num a r) ∧ IsDec r.call) →
      ds.length ≤ (v0 a).toNat)
    {t n t' n' : Nat} {r r' : Rec (ACall (D.C a)) (Option (BitVec (D.C a).w))} (hr : eventAt threads t n = some (.num a r))
    (hdec : IsDec r.call) (hlast : TellsLast r.call r.res) (hr' : eventAt threads t' n' = some (.num a r')) (hdec' : IsDec r'.call)
    (hne : ¬ (t' = t ∧ n' = n)) {l l' : Nat} {e e' : Event D δ} (he : eventAt threads t' l = some e)
    (he' : eventAt threads t l' = some e') (hln : l ≤ n') (hnl : n ≤ l') : HB threads t' l t l' := by
  obtain ⟨m, val, hh⟩ := hx.num a
  have hcalls' : ∀ t n r, callAt (part (Event.num? a) threads) t n = some r → IsDec r.call ∨ r.call.1 = .load := by
    intro t n r h
    obtain ⟨b, e, e1, e2, -⟩ := callAt_part h
    rw [num?_some e2] at e1
    exact hcalls t b r e1
  have hcount : ∀ p, p ≤ m → ∃ ds : List (Nat × Nat), ds.Nodup ∧ ds.length = p ∧ ∀ q ∈ ds, ∃ r j,
      eventAt threads q.1 q.2 = some (.num a r) ∧ IsDec r.call ∧ r.acc = .write j ∧ j < p := by
    intro p
    induction p with
    | zero => exact fun _ => ⟨[], List.nodup_nil, rfl, by simp⟩
    | succ p ih =>
      intro hp
      obtain ⟨ds, d1, d2, d3⟩ := ih (by omega)
      obtain ⟨u, c, q, hq, hqa⟩ := hh.writer p (by omega)
      have hqd := writes_dec hh hcalls' u c q p hq hqa
      obtain ⟨b, e, e1, e2, -⟩ := callAt_part hq
      rw [num?_some e2] at e1
      refine ⟨(u, b) :: ds, List.nodup_cons.2 ⟨fun hin => ?_, d1⟩, by simp [d2], ?_⟩
      · obtain ⟨r, j, h1, -, h3, h4⟩ := d3 _ hin
        rw [e1] at h1
        cases h1
        rw [hqa] at h3; cases h3; omega
      · intro x hx
        rcases List.mem_cons.1 hx with rfl | hx
        · exact ⟨q, p, e1, hqd, hqa, by omega⟩
        · obtain ⟨r, j, h1, h2, h3, h4⟩ := d3 x hx
          exact ⟨r, j, h1, h2, h3, by omega⟩
  have hmc : m ≤ (v0 a).toNat := by
    obtain ⟨ds, d1, d2, d3⟩ := hcount m (Nat.le_refl _)
    rw [← d2]
    exact hm ds d1 fun q hq => let ⟨r, _, h1, h2, _⟩ := d3 q hq; ⟨r, h1, h2⟩
  refine hb_from (hb_num (C130_last_reference (D.C a) (hD.elem a) D.dflt hd (v0 a) hh hcalls' hmc t _ r
    (part_callAt hr (num?_eq a r)) hdec hlast t' _ r' (part_callAt hr' (num?_eq a r')) hdec' ?_) hr' rfl hr rfl)
    hr' hr he he' hln hnl
  rintro ⟨rfl, h⟩
  exact hne ⟨rfl, before_inj hr' (num?_eq a r') hr (num?_eq a r) h⟩

/-! ## Examples -/

/-- One bitset of five positions and one atomic `std::uint8_t` that is kept in 32 bits. -/
def two : Decls Unit Unit := ⟨fun _ => 8, fun _ => 5, fun _ => ⟨8, 32, false, false⟩, .seqCst⟩

theorem two_ok : two.Ok := by
  constructor <;> intro x <;> cases x <;> first | exact .inl rfl | decide

/-- Some data is written and handed over by means of the bitset; who notices hands it over by means of the atomic to a third thread. -/
def relay : List (List (Event two Nat)) :=
  [[.plain 0 true, .bits () ⟨.op (.set 1 true) (some .release), .prev (some [0#8]), .write 0⟩],
   [.bits () ⟨.index 1, .flag true, .read 1⟩, .num () ⟨(.store 7#8, some .release), none, .write 0⟩],
   [.num () ⟨(.load, some .acquire), some 7#8, .read 1⟩, .plain 0 false]]

theorem relay_histories : Histories (fun _ => 0#8) (fun _ => 0#8) relay := by
  refine ⟨fun | () => ⟨1, fun n => [0#8, 2#8].getD n 0#8, .of_rules rfl ?_ (by decide)⟩,
    fun | () => ⟨1, fun n => [0#32, 7#32].getD n 0#32, .of_rules rfl ?_ (by decide)⟩⟩
  · intro rs hrs r hr
    fin_cases hrs <;> fin_cases hr
    · exact ⟨_, _, _, _, rfl, rfl, .inr ⟨by decide, 0, rfl, rfl⟩⟩
    · exact ⟨_, _, _, _, rfl, rfl, .inl ⟨rfl, 1, rfl⟩⟩
  · intro rs hrs r hr
    fin_cases hrs <;> fin_cases hr
    · exact ⟨_, _, _, _, rfl, rfl, .inr ⟨by decide, 0, rfl, rfl⟩⟩
    · exact ⟨_, _, _, _, rfl, rfl, .inl ⟨rfl, 1, rfl⟩⟩

example : HB relay 0 0 2 1 := by
  refine C138_hand_over two_ok relay_histories ?_ (n := 1) (n' := 0) (.onwards (t' := 1) (n' := 0) (l := 1)
    (.bits (k := ()) (i := 1) (by decide) rfl rfl ⟨_, rfl, rfl⟩ (.inl rfl) ?_ rfl (.inr (.inr rfl)) ⟨rfl, rfl⟩) (by decide)
    (.num (a := ()) (v := 7#8) rfl (.inl rfl) ?_ rfl (.inr ⟨_, rfl, .inl rfl⟩) (show 7#8 ≠ 0#8 by decide))) rfl rfl (by decide) (by decide)
  · intro t n k r h
    match t, n with
    | 0, 1 => cases h; simp [BCall.Legal, AtomicBitset.Op.Legal, two]
    | 1, 0 => cases h; simp [BCall.Legal, two]
    | 0, 0 => cases h
    | 1, 1 => cases h
    | 2, 0 => cases h
    | 2, 1 => cases h
    | 0, _ + 2 => cases h
    | 1, _ + 2 => cases h
    | 2, _ + 2 => cases h
    | _ + 3, _ => simp [eventAt, relay] at h
  · intro t n r h
    match t, n with
    | 0, 1 => exact fun _ => ⟨rfl, rfl⟩
    | 1, 0 => cases h; intro h; exact absurd rfl h
    | 0, 0 => cases h
    | 1, 1 => cases h
    | 2, 0 => cases h
    | 2, 1 => cases h
    | 0, _ + 2 => cases h
    | 1, _ + 2 => cases h
    | 2, _ + 2 => cases h
    | _ + 3, _ => simp [eventAt, relay] at h
  · intro t n r h
    match t, n with
    | 1, 1 => exact fun _ => ⟨rfl, rfl⟩
    | 2, 0 => cases h; intro h; exact absurd rfl h
    | 0, 0 => cases h
    | 0, 1 => cases h
    | 1, 0 => cases h
    | 2, 1 => cases h
    | 0, _ + 2 => cases h
    | 1, _ + 2 => cases h
    | 2, _ + 2 => cases h
    | _ + 3, _ => simp [eventAt, relay] at h

/-- Some data is written and handed over with `relaxed` only. -/
def careless : List (List (Event two Nat)) :=
  [[.plain 0 true, .bits () ⟨.op (.set 1 true) (some .relaxed), .prev (some [0#8]), .write 0⟩],
   [.bits () ⟨.index 1, .flag true, .read 1⟩, .plain 0 false]]

/-- **C138, relaxed orders hand over nothing.** There is an execution where a thread writes data and then sets a position with `relaxed`,
and another thread is told by an acquiring call that the position is set and then reads the data: a data race. -/
theorem C138_relaxed_race : ∃ threads : List (List (Event two Nat)), Histories (fun _ => 0#8) (fun _ => 0#8) threads ∧
    eventAt threads 0 0 = some (.plain 0 true) ∧
    (∃ r, eventAt threads 0 1 = some (.bits () r) ∧ r.call = .op (.set 1 true) (some .relaxed)) ∧
    (∃ r, eventAt threads 1 0 = some (.bits () r) ∧ Acquiring r.call.order ∧ Tells 1 true r.call r.res) ∧
    eventAt threads 1 1 = some (.plain 0 false) ∧ Race threads 0 := by
  have hno : ∀ t n t' n', HB careless t n t' n' → t = t' := by
    intro t n t' n' h
    induction h with
    | same => rfl
    | bits k t n t' n' q q' h h' hs =>
      obtain ⟨r, r', _, _, _, _, _, _, _, _, _, h1, _, h3, _, _, h5, _, _, h6, _⟩ := hs
      generalize before (Event.bits? k) careless t n = p at h1
      match k, t, p with
      | (), 0, 0 => cases h1; cases h3; cases h5
      | (), 1, 0 => cases h1; cases h6
      | (), 0, _ + 1 => cases h1
      | (), 1, _ + 1 => cases h1
      | (), _ + 2, _ => simp [callAt, part, careless] at h1
    | num a t n t' n' q q' h h' hs =>
      match t, n with
      | 0, 0 => cases h
      | 0, 1 => cases h
      | 1, 0 => cases h
      | 1, 1 => cases h
      | 0, _ + 2 => cases h
      | 1, _ + 2 => cases h
      | _ + 2, _ => simp [eventAt, careless] at h
    | trans _ _ _ _ _ _ _ _ ih ih' => exact ih.trans ih'
  refine ⟨careless, ⟨fun | () => ⟨1, fun n => [0#8, 2#8].getD n 0#8, .of_rules rfl ?_ (by decide)⟩,
    fun | () => ⟨0, fun _ => 0#32, .of_rules rfl ?_ (by decide)⟩⟩, rfl, ⟨_, rfl, rfl⟩,
    ⟨_, rfl, .inr (.inr rfl), ⟨rfl, rfl⟩⟩, rfl,
    ⟨0, 0, _, 1, 1, _, rfl, rfl, .inl rfl, by decide, fun h => absurd (hno _ _ _ _ h) (by decide),
      fun h => absurd (hno _ _ _ _ h) (by decide)⟩⟩
  · intro rs hrs r hr
    fin_cases hrs <;> fin_cases hr
    · exact ⟨_, _, _, _, rfl, rfl, .inr ⟨by decide, 0, rfl, rfl⟩⟩
    · exact ⟨_, _, _, _, rfl, rfl, .inl ⟨rfl, 1, rfl⟩⟩
  · intro rs hrs r hr
    fin_cases hrs <;> simp [Event.num?] at hr

/-- Data written by two threads behind a lock. -/
def guarded : List (List (Event two Nat)) :=
  [[.bits () ⟨.op (.set 2 true) (some .acquire), .prev (some [0#8]), .write 0⟩, .plain 4 true,
    .bits () ⟨.op (.reset 2) (some .release), .prev (some [4#8]), .write 1⟩],
   [.num () ⟨(.load, none), some 0#8, .read 0⟩, .bits () ⟨.op (.set 2 true) (some .acquire), .prev (some [0#8]), .write 2⟩, .plain 4 true]]

theorem guarded_histories : Histories (fun _ => 0#8) (fun _ => 0#8) guarded := by
  refine ⟨fun | () => ⟨3, fun n => [0#8, 4#8, 0#8, 4#8].getD n 0#8, .of_rules rfl ?_ (by decide)⟩,
    fun | () => ⟨0, fun _ => 0#32, .of_rules rfl ?_ (by decide)⟩⟩
  · intro rs hrs r hr
    fin_cases hrs <;> fin_cases hr
    · exact ⟨_, _, _, _, rfl, rfl, .inr ⟨by decide, 0, rfl, rfl⟩⟩
    · exact ⟨_, _, _, _, rfl, rfl, .inr ⟨by decide, 1, rfl, rfl⟩⟩
    · exact ⟨_, _, _, _, rfl, rfl, .inr ⟨by decide, 2, rfl, rfl⟩⟩
  · intro rs hrs r hr
    fin_cases hrs <;> fin_cases hr
    · exact ⟨_, _, _, _, rfl, rfl, .inl ⟨rfl, 0, rfl⟩⟩

theorem guarded_use : LockUse 2 (part (Event.bits? ()) guarded) := by
  constructor
  · intro t n r h
    match t, n with
    | 0, 0 => cases h; exact .inl ⟨⟨_, rfl⟩, .inl rfl⟩
    | 0, 1 => cases h; exact .inr (.inl ⟨⟨_, .inl rfl⟩, .inl rfl⟩)
    | 0, _ + 2 => cases h
    | 1, 0 => cases h; exact .inl ⟨⟨_, rfl⟩, .inl rfl⟩
    | 1, _ + 1 => cases h
    | _ + 2, _ => simp [callAt, part, guarded] at h
  · intro t n r h hu
    match t, n with
    | 0, 1 => exact ⟨0, _, by decide, rfl, ⟨⟨_, rfl⟩, rfl⟩, fun l _ h1 h2 => by omega⟩
    | 0, 0 => cases h; obtain ⟨_, h | h⟩ := hu <;> cases h
    | 0, _ + 2 => cases h
    | 1, 0 => cases h; obtain ⟨_, h | h⟩ := hu <;> cases h
    | 1, _ + 1 => cases h
    | _ + 2, _ => simp [callAt, part, guarded] at h

theorem guarded_legal : Legal guarded := by
  intro t n k r h
  match t, n with
  | 0, 0 => cases h; simp [BCall.Legal, AtomicBitset.Op.Legal, two]
  | 0, 2 => cases h; simp [BCall.Legal, AtomicBitset.Op.Legal, two]
  | 1, 1 => cases h; simp [BCall.Legal, AtomicBitset.Op.Legal, two]
  | 0, 1 => cases h
  | 1, 0 => cases h
  | 1, 2 => cases h
  | 0, _ + 3 => cases h
  | 1, _ + 3 => cases h
  | _ + 2, _ => simp [eventAt, guarded] at h

theorem guarded_holding : ∀ t a x, eventAt guarded t a = some (.plain 4 x) → Holding guarded () 2 t a := by
  intro t a x h
  match t, a with
  | 0, 1 => exact ⟨0, _, by decide, rfl, ⟨⟨_, rfl⟩, rfl⟩, fun l _ h1 h2 => by omega⟩
  | 1, 2 => exact ⟨1, _, by decide, rfl, ⟨⟨_, rfl⟩, rfl⟩, fun l _ h1 h2 => by omega⟩
  | 0, 0 => cases h
  | 0, 2 => cases h
  | 1, 0 => cases h
  | 1, 1 => cases h
  | 0, _ + 3 => cases h
  | 1, _ + 3 => cases h
  | _ + 2, _ => simp [eventAt, guarded] at h

example : ¬ Race guarded 4 :=
  C138_lock_data two_ok guarded_histories guarded_legal () 2 (by decide) rfl guarded_use 4 guarded_holding

/-- Two threads read some data and give up their references; the one that gave up the last one writes it. -/
def shared : List (List (Event two Nat)) :=
  [[.plain 9 false, .num () ⟨(.postDec, none), some 2#8, .write 0⟩],
   [.plain 9 false, .num () ⟨(.preDec, none), some 0#8, .write 1⟩, .plain 9 true]]

theorem shared_histories : Histories (fun _ => 0#8) (fun _ => 2#8) shared := by
  refine ⟨fun | () => ⟨0, fun _ => 0#8, .of_rules rfl ?_ (by decide)⟩,
    fun | () => ⟨2, fun n => [2#32, 1#32, 0#32].getD n 0#32, .of_rules rfl ?_ (by decide)⟩⟩
  · intro rs hrs r hr
    fin_cases hrs <;> simp [Event.bits?] at hr
  · intro rs hrs r hr
    fin_cases hrs <;> fin_cases hr
    · exact ⟨_, _, _, _, rfl, rfl, .inr ⟨by decide, 0, rfl, rfl⟩⟩
    · exact ⟨_, _, _, _, rfl, rfl, .inr ⟨by decide, 1, rfl, rfl⟩⟩

example : HB shared 0 0 1 2 := by
  have hat : ∀ t n r, eventAt shared t n = some (.num () r) → (t, n) = (0, 1) ∨ (t, n) = (1, 1) := by
    intro t n r h
    match t, n with
    | 0, 1 => exact .inl rfl
    | 1, 1 => exact .inr rfl
    | 0, 0 => cases h
    | 1, 0 => cases h
    | 1, 2 => cases h
    | 0, _ + 2 => cases h
    | 1, _ + 3 => cases h
    | _ + 2, _ => simp [eventAt, shared] at h
  refine C138_last_reference two_ok (.inl rfl) shared_histories () ?_ ?_ (t := 1) (n := 1) (t' := 0) (n' := 1) rfl
    (.inr (.inr (.inl rfl))) (.inr ⟨.inr rfl, rfl⟩) rfl (.inr (.inr (.inr rfl))) (by decide) rfl rfl (by decide) (by decide)
  · intro t n r h
    rcases hat t n r h with e | e <;> cases e <;> cases h
    · exact .inl (.inr (.inr (.inr rfl)))
    · exact .inl (.inr (.inr (.inl rfl)))
  · intro ds hnd hall
    have hsub : ds ⊆ [(0, 1), (1, 1)] := by
      intro q hq
      obtain ⟨r, h, _⟩ := hall q hq
      rcases hat q.1 q.2 r h with e | e <;> simp [← e]
    exact (hnd.subperm hsub).length_le

end Verif.Sync
