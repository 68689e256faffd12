import Verif.SeqCst.Spec
import Verif.Sync.PropsTicket
import Verif.Sync.Turns

/-!
# Programs that name no memory orders (C162)
-/

namespace Verif.SeqCst

open Verif.Sync Verif.Conc

variable {κ γ δ : Type} {D : Decls κ γ} [DecidableEq κ] [DecidableEq γ]

/-! ## Lemmas -/

theorem index {S : List (Nat × Nat)} (hn : S.Nodup) {i j : Nat} {x : Nat × Nat} (h : S[i]? = some x) (h' : S[j]? = some x) : i = j :=
  (List.getElem?_inj (List.getElem?_eq_some_iff.mp h).1 hn).mp (h.trans h'.symm)

theorem earlier_mem {S Q R : List (Nat × Nat)} {x y : Nat × Nat} (hn : S.Nodup) (hS : S = Q ++ y :: R) (h : Earlier S x y) : x ∈ Q := by
  obtain ⟨i, j, hij, hi, hj⟩ := h
  have : j = Q.length := index hn hj (by rw [hS]; simp)
  subst this
  rw [hS, List.getElem?_append_left hij] at hi
  exact List.mem_of_getElem? hi

theorem mem_earlier {S Q R : List (Nat × Nat)} {x y : Nat × Nat} (hn : S.Nodup) (hS : S = Q ++ y :: R) (hx : x ∈ Q) : ¬ Earlier S y x := by
  rintro ⟨i, j, hij, hi, hj⟩
  have h1 : i = Q.length := index hn hi (by rw [hS]; simp)
  obtain ⟨j', hj'⟩ := List.getElem?_of_mem hx
  have hlt := (List.getElem?_eq_some_iff.mp hj').1
  have h2 : j = j' := index hn hj (by rw [hS, List.getElem?_append_left hlt]; exact hj')
  omega

/-- An object holds what the calls so far have written. -/
def Holds {ε ρ C : Type} {w : Nat} (f : ε → Option (Rec C ρ)) (threads : List (List ε)) (m : Nat) (val : Nat → BitVec w) (Q : List (Nat × Nat))
    (v : BitVec w) : Prop :=
  ∃ p, p ≤ m ∧ v = val p ∧ ∀ t n e r j, eventAt threads t n = some e → f e = some r → r.acc = .write j → ((t, n) ∈ Q ↔ j < p)

theorem Holds.other {ε ρ C : Type} {w : Nat} {f : ε → Option (Rec C ρ)} {threads : List (List ε)} {m : Nat} {val : Nat → BitVec w}
    {Q : List (Nat × Nat)} {v : BitVec w} (h : Holds f threads m val Q v) {y : Nat × Nat} {e : ε} (he : eventAt threads y.1 y.2 = some e)
    (hf : f e = none) : Holds f threads m val (Q ++ [y]) v := by
  obtain ⟨p, hp, hv, hq⟩ := h
  refine ⟨p, hp, hv, fun t n e' r j h1 h2 h3 => ?_⟩
  rw [List.mem_append, List.mem_singleton, hq t n e' r j h1 h2 h3]
  constructor
  · rintro (h | rfl)
    · exact h
    · rw [he] at h1; cases h1; rw [hf] at h2; cases h2
  · exact .inl

theorem Holds.next {ε ρ C : Type} {w : Nat} {impl : C → LProg w ρ} {c0 : BitVec w} {f : ε → Option (Rec C ρ)} {threads : List (List ε)} {m : Nat}
    {val : Nat → BitVec w} (hh : History impl c0 m val (part f threads)) {S Q R : List (Nat × Nat)} {v : BitVec w}
    (h : Holds f threads m val Q v) {y : Nat × Nat} (hn : S.Nodup) (hS : S = Q ++ y :: R) {e : ε} {r : Rec C ρ}
    (he : eventAt threads y.1 y.2 = some e) (hf : f e = some r)
    (hc : ∀ t n e' r', eventAt threads t n = some e' → f e' = some r' →
      (Cob r'.acc r.acc → Earlier S (t, n) y) ∧ (Cob r.acc r'.acc → Earlier S y (t, n))) :
    ∃ x, alone (impl r.call) v = .ok (x, r.res) ∧ Holds f threads m val (Q ++ [y]) x := by
  obtain ⟨p, hp, rfl, hq⟩ := h
  have hcall := part_callAt he hf
  have hyQ : y ∉ Q := by
    intro hy
    rw [hS] at hn
    exact (List.nodup_append.mp hn).2.2 y hy y (by simp) rfl
  have same : ∀ {t n e' r' j}, eventAt threads t n = some e' → f e' = some r' → r.acc = .write j → r'.acc = .write j → (t, n) = y := by
    intro t n e' r' j h1 h2 h3 h4
    obtain ⟨h5, h6⟩ := hh.unique (part_callAt h1 h2) hcall h4 h3
    have := before_inj (t := t) h1 h2 (by rw [h5]; exact he) hf (by rw [h6, h5])
    exact Prod.ext h5 this
  have hpm := hh.pos_le hcall
  have writer : ∀ j, j < m → ∃ t n e' r', eventAt threads t n = some e' ∧ f e' = some r' ∧ r'.acc = .write j := by
    intro j hj
    obtain ⟨t, k, q, hq, hqa⟩ := hh.writer j hj
    obtain ⟨n, e', e1, e2, -⟩ := callAt_part hq
    exact ⟨t, n, e', q, e1, e2, hqa⟩
  have hpos : p = r.acc.pos := by
    rcases Nat.lt_trichotomy p r.acc.pos with hlt | heq | hlt
    · exfalso
      obtain ⟨t, n, e', r', h1, h2, h3⟩ := writer p (by omega)
      have hcob : Cob r'.acc r.acc := by
        rw [h3]
        cases ha : r.acc <;> rw [ha] at hlt <;> exact hlt
      have := (hq t n e' r' p h1 h2 h3).mp (earlier_mem hn hS ((hc t n e' r' h1 h2).1 hcob))
      omega
    · exact heq
    · exfalso
      obtain ⟨t, n, e', r', h1, h2, h3⟩ := writer r.acc.pos (by omega)
      have hin := (hq t n e' r' _ h1 h2 h3).mpr hlt
      cases ha : r.acc with
      | write j =>
        rw [ha] at h3
        rw [same h1 h2 ha h3] at hin
        exact hyQ hin
      | read j =>
        rw [ha] at h3
        refine mem_earlier hn hS hin ((hc t n e' r' h1 h2).2 ?_)
        rw [ha, h3]
        exact Nat.le_refl j
  obtain ⟨rs, hm1, hm2⟩ := callAt_mem hcall
  obtain ⟨k, o, g, c, hi, hres, hk⟩ := hh.does rs hm1 r hm2
  rw [hi]
  rcases hk with ⟨rfl, p', hp'⟩ | ⟨hk, j, hj, hval⟩
  · refine ⟨val p, ?_, p, hp, rfl, fun t n e' r' j h1 h2 h3 => ?_⟩
    · rw [← hpos] at hres
      simp [alone, hres]
    · rw [List.mem_append, List.mem_singleton, hq t n e' r' j h1 h2 h3]
      constructor
      · rintro (h | rfl)
        · exact h
        · rw [he] at h1; cases h1; rw [hf] at h2; cases h2; rw [hp'] at h3; cases h3
      · exact .inl
  · rw [hj] at hpos
    simp only [Acc.pos] at hpos
    subst hpos
    have hjm := (hh.bounded rs hm1 r hm2).1 p hj
    refine ⟨val (p + 1), ?_, p + 1, hjm, rfl, fun t n e' r' j h1 h2 h3 => ?_⟩
    · rw [hj] at hres
      simp only [Acc.pos] at hres
      simp [alone, hres, hk, hval]
    · rw [List.mem_append, List.mem_singleton, hq t n e' r' j h1 h2 h3]
      constructor
      · rintro (h | rfl)
        · omega
        · rw [he] at h1; cases h1; rw [hf] at h2; cases h2; rw [hj] at h3; cases h3; omega
      · intro h
        rcases Nat.lt_or_eq_of_le (Nat.le_of_lt_succ h) with h | rfl
        · exact .inl h
        · exact .inr (same h1 h2 hj h3)

section

variable {c0 : (k : κ) → BitVec (D.w k)} {v0 : (a : γ) → BitVec (D.C a).w} {threads : List (List (Event D δ))} {S : List (Nat × Nat)}

/-! ## Properties -/

/-- **C162, programs that name no memory orders.** If all calls of all bitsets and atomics are sequentially consistent, what the threads do
is as if all calls were made one after the other, those of each thread in their order: each returns what it would return then. -/
theorem C162_interleaving (hx : Histories c0 v0 threads) (hS : SingleOrder threads S)
    (hall : ∀ t n e, eventAt threads t n = some e → IsCall e → IsSeqCst e) :
    ∃ S' : List (Nat × Nat), S'.Nodup ∧ (∀ t n, (t, n) ∈ S' ↔ ∃ e, eventAt threads t n = some e ∧ IsCall e) ∧
      (∀ t n n', (t, n) ∈ S' → (t, n') ∈ S' → n < n' → Earlier S' (t, n) (t, n')) ∧
      OneByOne c0 (fun a => Atomic.init (D.C a) (v0 a)) (scheduled threads S') := by
  have isCall : ∀ e : Event D δ, IsSeqCst e → IsCall e := by
    intro e h
    cases e <;> first | exact h | trivial
  refine ⟨S, hS.nodup, fun t n => ?_, hS.program, ?_⟩
  · rw [hS.mem]
    exact ⟨fun ⟨e, h1, h2⟩ => ⟨e, h1, isCall e h2⟩, fun ⟨e, h1, h2⟩ => ⟨e, h1, hall t n e h1 h2⟩⟩
  have hbits := hx.bits
  have hnum := hx.num
  choose mb vb hb using hbits
  choose mn vn hn using hnum
  have key : ∀ (R Q : List (Nat × Nat)) (b : (k : κ) → BitVec (D.w k)) (v : (a : γ) → BitVec (D.C a).e), S = Q ++ R →
      (∀ k, Holds (Event.bits? k) threads (mb k) (vb k) Q (b k)) → (∀ a, Holds (Event.num? a) threads (mn a) (vn a) Q (v a)) →
      OneByOne b v (scheduled threads R) := by
    intro R
    induction R with
    | nil => intros; trivial
    | cons y R ih =>
      intro Q b v hQ h1 h2
      have hy : (y.1, y.2) ∈ S := by rw [hQ]; simp
      obtain ⟨e, he, hsc⟩ := (hS.mem y.1 y.2).mp hy
      have hs : scheduled threads (y :: R) = e :: scheduled threads R := by simp [scheduled, he]
      rw [hs]
      cases e with
      | plain => exact absurd hsc id
      | bits k r =>
        obtain ⟨x, hx1, hx2⟩ := (h1 k).next (hb k) hS.nodup hQ he (bits?_eq k r) fun t n e' r' h3 h4 => by
          rw [bits?_some h4] at h3
          have hm : (t, n) ∈ S := (hS.mem t n).mpr ⟨_, h3, hall t n _ h3 trivial⟩
          exact ⟨hS.bits k t n y.1 y.2 r' r hm hy h3 he, hS.bits k y.1 y.2 t n r r' hy hm he h3⟩
        refine ⟨x, hx1, ih (Q ++ [y]) _ _ (by simp [hQ]) (fun k' => ?_) fun a => (h2 a).other he rfl⟩
        by_cases hk : k' = k
        · subst hk; rw [Function.update_self]; exact hx2
        · rw [Function.update_of_ne hk]
          exact (h1 k').other he (by simp [Event.bits?, Ne.symm hk])
      | num a r =>
        obtain ⟨x, hx1, hx2⟩ := (h2 a).next (hn a) hS.nodup hQ he (num?_eq a r) fun t n e' r' h3 h4 => by
          rw [num?_some h4] at h3
          have hm : (t, n) ∈ S := (hS.mem t n).mpr ⟨_, h3, hall t n _ h3 trivial⟩
          exact ⟨hS.num a t n y.1 y.2 r' r hm hy h3 he, hS.num a y.1 y.2 t n r r' hy hm he h3⟩
        refine ⟨x, hx1, ih (Q ++ [y]) _ _ (by simp [hQ]) (fun k => (h1 k).other he rfl) fun a' => ?_⟩
        by_cases hk : a' = a
        · subst hk; rw [Function.update_self]; exact hx2
        · rw [Function.update_of_ne hk]
          exact (h2 a').other he (by simp [Event.num?, Ne.symm hk])
  refine key S [] _ _ rfl (fun k => ⟨0, Nat.zero_le _, (hb k).initial.symm, by simp⟩) fun a => ⟨0, Nat.zero_le _, (hn a).initial.symm, by simp⟩

/-- **C162, no order named.** The same if no call names a memory order and the default of the external library, for `++` and `--`, is `seq_cst`. -/
theorem C162_no_order (hx : Histories c0 v0 threads) (hS : SingleOrder threads S) (hd : D.dflt = .seqCst)
    (hno : ∀ t n e, eventAt threads t n = some e → NoOrder e) :
    ∃ S' : List (Nat × Nat), S'.Nodup ∧ (∀ t n, (t, n) ∈ S' ↔ ∃ e, eventAt threads t n = some e ∧ IsCall e) ∧
      (∀ t n n', (t, n) ∈ S' → (t, n') ∈ S' → n < n' → Earlier S' (t, n) (t, n')) ∧
      OneByOne c0 (fun a => Atomic.init (D.C a) (v0 a)) (scheduled threads S') := by
  refine C162_interleaving hx hS fun t n e he hc => ?_
  have h := hno t n e he
  cases e with
  | plain => exact hc
  | bits k r =>
    obtain ⟨call, res, acc⟩ := r
    show call.order = .seqCst
    cases call <;> simp only [NoOrder] at h <;> first | (subst h; rfl) | rfl
  | num a r =>
    obtain ⟨⟨op, mo⟩, res, acc⟩ := r
    cases h
    show aorder D.dflt op none = .seqCst
    cases op <;> first | exact hd | rfl

/-- **C162, flags.** Two threads each store a flag of their own, other than zero, and then load the flag of the other one, and no order is named
(or a sequentially consistent one). They do not both find zero: at least one of them knows of the other. -/
theorem C162_flags (hD : D.Ok) (hx : Histories c0 v0 threads) (hS : SingleOrder threads S) {a b : γ}
    (ha : ∀ t n r, eventAt threads t n = some (.num a r) → r.call.1 = .load ∨ ∃ u, (r.call.1 = .store u ∨ r.call.1 = .assign u) ∧ u ≠ 0#_)
    (hb : ∀ t n r, eventAt threads t n = some (.num b r) → r.call.1 = .load ∨ ∃ u, (r.call.1 = .store u ∨ r.call.1 = .assign u) ∧ u ≠ 0#_)
    {t n l t' n' l' : Nat} {s : _} {r : _} {s' : _} {r' : _} (hn : n < l) (hn' : n' < l')
    (h1 : eventAt threads t n = some (.num a s)) (h2 : eventAt threads t l = some (.num b r))
    (h3 : eventAt threads t' n' = some (.num b s')) (h4 : eventAt threads t' l' = some (.num a r'))
    (hs : s.call.1 ≠ .load) (hr : r.call.1 = .load) (hs' : s'.call.1 ≠ .load) (hr' : r'.call.1 = .load)
    (o1 : IsSeqCst (.num a s : Event D δ)) (o2 : IsSeqCst (.num b r : Event D δ)) (o3 : IsSeqCst (.num b s' : Event D δ))
    (o4 : IsSeqCst (.num a r' : Event D δ)) : ¬ (r.res = some 0#_ ∧ r'.res = some 0#_) := by
  rintro ⟨z, z'⟩
  have key : ∀ {a : γ} (_ : ∀ t n r, eventAt threads t n = some (.num a r) →
      r.call.1 = .load ∨ ∃ u, (r.call.1 = .store u ∨ r.call.1 = .assign u) ∧ u ≠ 0#_) {t n t' l} {s r}, eventAt threads t n = some (.num a s) →
      eventAt threads t' l = some (.num a r) → s.call.1 ≠ .load → r.call.1 = .load → r.res = some 0#_ → Cob r.acc s.acc := by
    intro a ha t n t' l s r e1 e2 e3 e4 e5
    obtain ⟨m, val, hh⟩ := hx.num a
    have does : ∀ {t n r}, eventAt threads t n = some (.num a r) → Does (aimpl (D.C a) D.dflt) val r := by
      intro t n r h
      obtain ⟨rs, h1, h2⟩ := callAt_mem (part_callAt h (num?_eq a _))
      exact hh.does rs h1 r h2
    obtain ⟨p, _, _, hp, hv, _⟩ := load_does e4 (does e2)
    obtain ⟨u, hst, _⟩ := (ha t n s e1).resolve_left e3
    obtain ⟨j, _, _, hj, _⟩ := store_does hst (does e1)
    have hp0 : p = 0 := by
      cases p with
      | zero => rfl
      | succ p =>
        exfalso
        have hpm := hh.pos_le (part_callAt e2 (num?_eq a _))
        rw [hp] at hpm
        obtain ⟨t1, k, q, hq, hqa⟩ := hh.writer p hpm
        obtain ⟨n1, e', e6, e7, -⟩ := callAt_part hq
        rw [num?_some e7] at e6
        rcases ha t1 n1 q e6 with hl | ⟨u', hst', hu'⟩
        · obtain ⟨p', _, _, hp', _⟩ := load_does hl (does e6)
          rw [hqa] at hp'; cases hp'
        · obtain ⟨j', _, _, hj', hv', _⟩ := store_does hst' (does e6)
          rw [hqa] at hj'; cases hj'
          rw [hv', Atomic.narrow, Atomic.narrow_widen (hD.elem a), e5] at hv
          exact hu' (Option.some.inj hv).symm
    rw [hp, hj, hp0]
    exact Nat.zero_le j
  have m1 := (hS.mem t n).mpr ⟨_, h1, o1⟩
  have m2 := (hS.mem t l).mpr ⟨_, h2, o2⟩
  have m3 := (hS.mem t' n').mpr ⟨_, h3, o3⟩
  have m4 := (hS.mem t' l').mpr ⟨_, h4, o4⟩
  obtain ⟨i1, j1, l1, f1, g1⟩ := hS.program t n l m1 m2 hn
  obtain ⟨i2, j2, l2, f2, g2⟩ := hS.num b t l t' n' r s' m2 m3 h2 h3 (key hb h3 h2 hs' hr z)
  obtain ⟨i3, j3, l3, f3, g3⟩ := hS.program t' n' l' m3 m4 hn'
  obtain ⟨i4, j4, l4, f4, g4⟩ := hS.num a t' l' t n r' s m4 m1 h4 h1 (key ha h1 h4 hs hr' z')
  have q1 := index hS.nodup g1 f2
  have q2 := index hS.nodup g2 f3
  have q3 := index hS.nodup g3 f4
  have q4 := index hS.nodup g4 f1
  omega

end

/-! ## Examples -/

/-- Each thread stores its flag and looks at the other one; the second one finds what `p` says. -/
def flags (st ld : Option MOrd) (p : Nat) (v : BitVec 8) : List (List (Event desk Nat)) :=
  [[.num false ⟨(.store 1#8, st), none, .write 0⟩, .num true ⟨(.load, ld), some 0#8, .read 0⟩],
   [.num true ⟨(.store 1#8, st), none, .write 0⟩, .num false ⟨(.load, ld), some v, .read p⟩]]

theorem flags_histories {st ld : Option MOrd} {p : Nat} {v : BitVec 8}
    (h : (st = none ∧ ld = none ∧ p = 1 ∧ v = 1#8) ∨ (st = some .release ∧ ld = some .acquire ∧ p = 0 ∧ v = 0#8)) :
    Histories (fun _ => 0#8) (fun _ => 0#8) (flags st ld p v) := by
  refine ⟨fun | () => ⟨0, fun _ => 0#8, .of_rules rfl ?_ ?_⟩, fun
    | false => ⟨1, fun n => [0#32, 1#32].getD n 0#32, .of_rules rfl ?_ ?_⟩
    | true => ⟨1, fun n => [0#32, 1#32].getD n 0#32, .of_rules rfl ?_ ?_⟩⟩
  · intro rs hrs r hr
    fin_cases hrs <;> simp [Event.bits?] at hr
  · rcases h with ⟨rfl, rfl, rfl, rfl⟩ | ⟨rfl, rfl, rfl, rfl⟩ <;> decide
  · intro rs hrs r hr
    rcases h with ⟨rfl, rfl, rfl, rfl⟩ | ⟨rfl, rfl, rfl, rfl⟩ <;> fin_cases hrs <;> fin_cases hr
    · exact ⟨_, _, _, _, rfl, rfl, .inr ⟨by decide, 0, rfl, rfl⟩⟩
    · exact ⟨_, _, _, _, rfl, rfl, .inl ⟨rfl, 1, rfl⟩⟩
    · exact ⟨_, _, _, _, rfl, rfl, .inr ⟨by decide, 0, rfl, rfl⟩⟩
    · exact ⟨_, _, _, _, rfl, rfl, .inl ⟨rfl, 0, rfl⟩⟩
  · rcases h with ⟨rfl, rfl, rfl, rfl⟩ | ⟨rfl, rfl, rfl, rfl⟩ <;> decide
  · intro rs hrs r hr
    rcases h with ⟨rfl, rfl, rfl, rfl⟩ | ⟨rfl, rfl, rfl, rfl⟩ <;> fin_cases hrs <;> fin_cases hr
    · exact ⟨_, _, _, _, rfl, rfl, .inl ⟨rfl, 0, rfl⟩⟩
    · exact ⟨_, _, _, _, rfl, rfl, .inr ⟨by decide, 0, rfl, rfl⟩⟩
    · exact ⟨_, _, _, _, rfl, rfl, .inl ⟨rfl, 0, rfl⟩⟩
    · exact ⟨_, _, _, _, rfl, rfl, .inr ⟨by decide, 0, rfl, rfl⟩⟩
  · rcases h with ⟨rfl, rfl, rfl, rfl⟩ | ⟨rfl, rfl, rfl, rfl⟩ <;> decide

theorem flags_events {st ld : Option MOrd} {p : Nat} {v : BitVec 8} {t n : Nat} {e : Event desk Nat} (h : eventAt (flags st ld p v) t n = some e) :
    (t = 0 ∧ n = 0) ∨ (t = 0 ∧ n = 1) ∨ (t = 1 ∧ n = 0) ∨ (t = 1 ∧ n = 1) := by
  match t, n with
  | 0, 0 | 0, 1 | 1, 0 | 1, 1 => simp
  | 0, _ + 2 | 1, _ + 2 => cases h
  | _ + 2, _ => simp [eventAt, flags] at h

def flagsOrder : List (Nat × Nat) := [(0, 0), (0, 1), (1, 0), (1, 1)]

theorem flags_single : SingleOrder (flags none none 1 1#8) flagsOrder where
  nodup := by decide
  mem := fun t n => by
    constructor
    · intro h
      simp only [flagsOrder, List.mem_cons, Prod.mk.injEq, List.not_mem_nil, or_false] at h
      rcases h with ⟨rfl, rfl⟩ | ⟨rfl, rfl⟩ | ⟨rfl, rfl⟩ | ⟨rfl, rfl⟩ <;> exact ⟨_, rfl, rfl⟩
    · rintro ⟨e, h, _⟩
      rcases flags_events h with ⟨rfl, rfl⟩ | ⟨rfl, rfl⟩ | ⟨rfl, rfl⟩ | ⟨rfl, rfl⟩ <;> decide
  program := fun t n n' h h' hn => by
    simp only [flagsOrder, List.mem_cons, Prod.mk.injEq, List.not_mem_nil, or_false] at h h'
    have : (t = 0 ∧ n = 0 ∧ n' = 1) ∨ (t = 1 ∧ n = 0 ∧ n' = 1) := by omega
    rcases this with ⟨rfl, rfl, rfl⟩ | ⟨rfl, rfl, rfl⟩
    · exact ⟨0, 1, by decide, rfl, rfl⟩
    · exact ⟨2, 3, by decide, rfl, rfl⟩
  bits := fun k t n t' n' r r' _ _ h _ _ => by
    rcases flags_events h with ⟨rfl, rfl⟩ | ⟨rfl, rfl⟩ | ⟨rfl, rfl⟩ | ⟨rfl, rfl⟩ <;> cases h
  num := fun a t n t' n' r r' _ _ h h' hc => by
    rcases flags_events h with ⟨rfl, rfl⟩ | ⟨rfl, rfl⟩ | ⟨rfl, rfl⟩ | ⟨rfl, rfl⟩ <;>
      rcases flags_events h' with ⟨rfl, rfl⟩ | ⟨rfl, rfl⟩ | ⟨rfl, rfl⟩ | ⟨rfl, rfl⟩ <;> cases h <;> cases h' <;>
      first
        | exact ⟨0, 3, by decide, rfl, rfl⟩
        | exact ⟨1, 2, by decide, rfl, rfl⟩
        | exact absurd hc (by simp [Cob])

example : ∃ S' : List (Nat × Nat), S'.Nodup ∧ (∀ t n, (t, n) ∈ S' ↔ ∃ e, eventAt (flags none none 1 1#8) t n = some e ∧ IsCall e) ∧
    (∀ t n n', (t, n) ∈ S' → (t, n') ∈ S' → n < n' → Earlier S' (t, n) (t, n')) ∧
    OneByOne (D := desk) (fun _ => 0#8) (fun a => Atomic.init (desk.C a) 0#8) (scheduled (flags none none 1 1#8) S') :=
  C162_interleaving (flags_histories (.inl ⟨rfl, rfl, rfl, rfl⟩)) flags_single fun t n e h _ => by
    rcases flags_events h with ⟨rfl, rfl⟩ | ⟨rfl, rfl⟩ | ⟨rfl, rfl⟩ | ⟨rfl, rfl⟩ <;> cases h <;> rfl

example : ∃ S' : List (Nat × Nat), S'.Nodup ∧ (∀ t n, (t, n) ∈ S' ↔ ∃ e, eventAt (flags none none 1 1#8) t n = some e ∧ IsCall e) ∧
    (∀ t n n', (t, n) ∈ S' → (t, n') ∈ S' → n < n' → Earlier S' (t, n) (t, n')) ∧
    OneByOne (D := desk) (fun _ => 0#8) (fun a => Atomic.init (desk.C a) 0#8) (scheduled (flags none none 1 1#8) S') :=
  C162_no_order (flags_histories (.inl ⟨rfl, rfl, rfl, rfl⟩)) flags_single rfl fun t n e h => by
    rcases flags_events h with ⟨rfl, rfl⟩ | ⟨rfl, rfl⟩ | ⟨rfl, rfl⟩ | ⟨rfl, rfl⟩ <;> cases h <;> rfl

theorem flags_stores {st ld : Option MOrd} {p : Nat} {v : BitVec 8} (a : Bool) (t n : Nat) (r) (h : eventAt (flags st ld p v) t n = some (.num a r)) :
    r.call.1 = .load ∨ ∃ u, (r.call.1 = .store u ∨ r.call.1 = .assign u) ∧ u ≠ 0#_ := by
  rcases flags_events h with ⟨rfl, rfl⟩ | ⟨rfl, rfl⟩ | ⟨rfl, rfl⟩ | ⟨rfl, rfl⟩ <;> cases h
  · exact .inr ⟨1#8, .inl rfl, show 1#8 ≠ 0#8 by decide⟩
  · exact .inl rfl
  · exact .inr ⟨1#8, .inl rfl, show 1#8 ≠ 0#8 by decide⟩
  · exact .inl rfl

example : ¬ ((some 0#8 : Option (BitVec 8)) = some 0#8 ∧ (some 1#8 : Option (BitVec 8)) = some 0#8) :=
  C162_flags desk_ok (flags_histories (.inl ⟨rfl, rfl, rfl, rfl⟩)) flags_single (flags_stores false) (flags_stores true) (t := 0) (n := 0) (l := 1)
    (t' := 1) (n' := 0) (l' := 1) (by decide) (by decide) rfl rfl rfl rfl (by simp) rfl (by simp) rfl rfl rfl rfl rfl

/-- **C162, the orders matter.** If the flags are stored with `release` and loaded with `acquire`, there is an execution in which both threads find
zero. -/
theorem C162_acquire_release_fails : ∃ threads : List (List (Event desk Nat)), Histories (fun _ => 0#8) (fun _ => 0#8) threads ∧
    Consistent threads ∧ (∃ S, SingleOrder threads S) ∧
    eventAt threads 0 0 = some (.num false ⟨(.store 1#8, some .release), none, .write 0⟩) ∧
    eventAt threads 0 1 = some (.num true ⟨(.load, some .acquire), some 0#8, .read 0⟩) ∧
    eventAt threads 1 0 = some (.num true ⟨(.store 1#8, some .release), none, .write 0⟩) ∧
    eventAt threads 1 1 = some (.num false ⟨(.load, some .acquire), some 0#8, .read 0⟩) := by
  have hno : ∀ t n t' n', HB (flags (some .release) (some .acquire) 0 0#8) t n t' n' → t = t' ∧ n < n' := by
    intro t n t' n' h
    induction h with
    | same _ _ _ _ _ _ _ hn => exact ⟨rfl, hn⟩
    | bits k t n t' n' q q' h h' hs =>
      rcases flags_events h with ⟨rfl, rfl⟩ | ⟨rfl, rfl⟩ | ⟨rfl, rfl⟩ | ⟨rfl, rfl⟩ <;> cases h
    | num a t n t' n' q q' h h' hs =>
      obtain ⟨r, r', _, _, _, _, _, _, _, _, j, _, h2, _, _, _, _, _, _, _, h3, _⟩ := hs
      rw [part_callAt h' (num?_eq a _), Option.some.injEq] at h2
      subst h2
      rcases flags_events h' with ⟨rfl, rfl⟩ | ⟨rfl, rfl⟩ | ⟨rfl, rfl⟩ | ⟨rfl, rfl⟩ <;> cases h' <;> exact absurd h3 (Nat.not_lt_zero j)
    | trans _ _ _ _ _ _ _ _ ih ih' => exact ⟨ih.1.trans ih'.1, ih.2.trans ih'.2⟩
  refine ⟨flags (some .release) (some .acquire) 0 0#8, flags_histories (.inr ⟨rfl, rfl, rfl, rfl⟩), ?_, ⟨[], .nil, fun t n => ⟨fun h => (by cases h), ?_⟩,
    fun _ _ _ h => (by cases h), fun _ _ _ _ _ _ _ h => (by cases h), fun _ _ _ _ _ _ _ h => (by cases h)⟩, rfl, rfl, rfl, rfl⟩
  case refine_2 =>
    rintro ⟨e, h, he⟩
    rcases flags_events h with ⟨rfl, rfl⟩ | ⟨rfl, rfl⟩ | ⟨rfl, rfl⟩ | ⟨rfl, rfl⟩ <;> cases h <;> cases he
  intro a t n t' n' r r' h h' hb
  obtain ⟨rfl, hn⟩ := hno _ _ _ _ hb
  rcases flags_events h with ⟨rfl, rfl⟩ | ⟨rfl, rfl⟩ | ⟨rfl, rfl⟩ | ⟨rfl, rfl⟩ <;>
    rcases flags_events h' with ⟨h0, rfl⟩ | ⟨h0, rfl⟩ | ⟨h0, rfl⟩ | ⟨h0, rfl⟩ <;>
    first | exact absurd hn (by decide) | exact absurd h0 (by decide) | (cases h; cases h')

end Verif.SeqCst
