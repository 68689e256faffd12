import Verif.Channel.Spec
import Verif.CxQueue.Lemmas
import Verif.Sync.PropsTicket

/-!
# Properties of a queue that threads share (C153)
-/

namespace Verif.Channel

open Verif.Sync
open CxQueue (Cfg Queue Rep rep_init)

variable {κ γ δ : Type} {D : Decls κ γ} [DecidableEq κ] [DecidableEq γ] {α S O R : Type}

/-! ## Operations in order -/

/-- A list can be put in order if any two of its elements are ordered. -/
theorem exists_sorted {β : Type} {r : β → β → Prop} (htr : ∀ a b c, r a b → r b c → r a c) (l : List β) (hnd : l.Nodup)
    (htot : ∀ a ∈ l, ∀ b ∈ l, a ≠ b → r a b ∨ r b a) : ∃ l' : List β, l'.Perm l ∧ l'.Pairwise r := by
  induction l with
  | nil => exact ⟨[], .refl _, .nil⟩
  | cons a l ih =>
    rw [List.nodup_cons] at hnd
    obtain ⟨l', hp, hs⟩ := ih hnd.2 fun b hb c hc => htot b (by simp [hb]) c (by simp [hc])
    have ha : ∀ b ∈ l', r a b ∨ r b a := fun b hb => by
      have hb' := hp.mem_iff.mp hb
      exact htot a (by simp) b (by simp [hb']) (fun h => hnd.1 (h ▸ hb'))
    have : ∃ l'' : List β, l''.Perm (a :: l') ∧ l''.Pairwise r := by
      clear hp ih htot hnd
      induction l' with
      | nil => exact ⟨[a], .refl _, by simp⟩
      | cons b l' ih =>
        rw [List.pairwise_cons] at hs
        rcases ha b (by simp) with h | h
        · refine ⟨a :: b :: l', .refl _, List.pairwise_cons.mpr ⟨fun x hx => ?_, List.pairwise_cons.mpr hs⟩⟩
          rcases List.mem_cons.mp hx with rfl | hx
          · exact h
          · exact htr _ _ _ h (hs.1 x hx)
        · obtain ⟨l'', hp, hs'⟩ := ih hs.2 fun x hx => ha x (by simp [hx])
          refine ⟨b :: l'', (hp.cons b).trans (.swap a b l'), List.pairwise_cons.mpr ⟨fun x hx => ?_, hs'⟩⟩
          rcases List.mem_cons.mp (hp.mem_iff.mp hx) with rfl | hx
          · exact h
          · exact hs.1 x hx
    obtain ⟨l'', hp', hs'⟩ := this
    exact ⟨l'', hp'.trans (hp.cons a), hs'⟩

/-- The events of an execution. -/
def positions {ε : Type} (threads : List (List ε)) : List (Nat × Nat) :=
  (List.range threads.length).flatMap fun t => (List.range (threads.getD t []).length).map fun n => (t, n)

theorem mem_positions {ε : Type} {threads : List (List ε)} {t n : Nat} {e : ε} (h : eventAt threads t n = some e) :
    (t, n) ∈ positions threads := by
  unfold eventAt at h
  cases ht : threads[t]? with
  | none => rw [ht] at h; simp at h
  | some l =>
    rw [ht] at h
    have hl : l[n]? = some e := by simpa using h
    obtain ⟨h1, _⟩ := List.getElem?_eq_some_iff.mp ht
    obtain ⟨h2, _⟩ := List.getElem?_eq_some_iff.mp hl
    simp only [positions, List.mem_flatMap, List.mem_range, List.mem_map, Prod.mk.injEq]
    exact ⟨t, h1, n, by simpa [List.getD, ht] using h2, rfl, rfl⟩

theorem nodup_positions {ε : Type} (threads : List (List ε)) : (positions threads).Nodup := by
  unfold positions
  rw [List.nodup_flatMap]
  refine ⟨fun t _ => ?_, ?_⟩
  · exact (List.nodup_range).map fun a b h => by simpa using h
  · refine (List.nodup_range (n := threads.length)).imp_of_mem fun {a b} _ _ hne => ?_
    simp only [Function.onFun, List.disjoint_left, List.mem_map, not_exists, not_and]
    rintro x ⟨n, _, rfl⟩ m _ h
    exact hne (congrArg Prod.fst h).symm

/-- The operations of an execution without data races, in the order in which they happen. -/
theorem in_order {step : S → O → Outcome (S × R)} {s0 : S} {threads : List (List (Event D δ))} {d : δ} {op : Nat × Nat → O}
    {pre : Nat × Nat → S} (hp : Plain step s0 threads d op pre) (hr : ¬ Race threads d) :
    ∃ L : List (Nat × Nat), L.Nodup ∧ (∀ p, p ∈ L ↔ IsOp threads d p) ∧ L.Pairwise (Before threads) := by
  classical
  obtain ⟨L, h1, h2⟩ := exists_sorted (r := Before threads) (fun a b c h h' => HB.trans _ _ _ _ _ _ h h')
    ((positions threads).filter fun p => decide (IsOp threads d p)) ((nodup_positions threads).filter _) (by
      intro a ha b hb hne
      simp only [List.mem_filter, decide_eq_true_eq] at ha hb
      refine Classical.byContradiction fun h => hr ?_
      rw [not_or] at h
      exact ⟨a.1, a.2, true, b.1, b.2, true, ha.2, hb.2, .inl rfl, fun he => hne (Prod.ext he.1 he.2), h.1, h.2⟩)
  refine ⟨L, h1.nodup_iff.mpr ((nodup_positions threads).filter _), fun p => ?_, h2⟩
  rw [h1.mem_iff]
  simp only [List.mem_filter, decide_eq_true_eq]
  exact ⟨fun h => h.2, fun h => ⟨mem_positions h, h⟩⟩

/-- An operation finds what the ones before it have left. -/
theorem finds {step : S → O → Outcome (S × R)} {s0 : S} {threads : List (List (Event D δ))} {d : δ} {op : Nat × Nat → O}
    {pre : Nat × Nat → S} (hp : Plain step s0 threads d op pre) {L : List (Nat × Nat)} (hm : ∀ p, p ∈ L ↔ IsOp threads d p)
    (hs : L.Pairwise (Before threads)) :
    (∀ p, L[0]? = some p → pre p = s0) ∧
    (∀ (n : Nat) p q, L[n]? = some p → L[n + 1]? = some q → ∀ s r, step (pre p) (op p) = .ok (s, r) → pre q = s) := by
  have hlt : ∀ {n m : Nat} {p q : Nat × Nat}, L[n]? = some p → L[m]? = some q → n < m → Before threads p q := by
    intro n m p q h h' hnm
    obtain ⟨h1, rfl⟩ := List.getElem?_eq_some_iff.mp h
    obtain ⟨h2, rfl⟩ := List.getElem?_eq_some_iff.mp h'
    exact List.pairwise_iff_getElem.mp hs n m h1 h2 hnm
  have hle : ∀ {n m : Nat} {p q : Nat × Nat}, L[n]? = some p → L[m]? = some q → Before threads p q → n < m := by
    intro n m p q h h' hb
    rcases Nat.lt_trichotomy n m with hl | rfl | hl
    · exact hl
    · rw [h] at h'; cases h'; exact absurd hb (hp.acyclic p)
    · exact absurd (HB.trans _ _ _ _ _ _ hb (hlt h' h hl)) (hp.acyclic p)
  have hat : ∀ {p}, IsOp threads d p → ∃ n : Nat, L[n]? = some p := fun h => List.getElem?_of_mem ((hm _).mpr h)
  have his : ∀ {n : Nat} {p : Nat × Nat}, L[n]? = some p → IsOp threads d p := fun h => (hm _).mp (List.mem_of_getElem? h)
  refine ⟨fun p h => hp.first p (his h) fun q hq hb => ?_, fun n p q h h' s r hst => hp.next p q (his h) (his h') (hlt h h' (by omega)) ?_ s r hst⟩
  · obtain ⟨m, hm'⟩ := hat hq
    have := hle hm' h hb
    omega
  · intro u hu hb hb'
    obtain ⟨m, hm'⟩ := hat hu
    have := hle h hm' hb
    have := hle hm' h' hb'
    omega

theorem oneByOne_results {step : S → O → Outcome (S × R)} {op : Nat × Nat → O} {pre : Nat × Nat → S} (L : List (Nat × Nat)) :
    ∀ {s0 s : S} {rs : List R}, oneByOne step s0 (L.map op) = .ok (s, rs) → (∀ p, L[0]? = some p → pre p = s0) →
      (∀ (n : Nat) p q, L[n]? = some p → L[n + 1]? = some q → ∀ s r, step (pre p) (op p) = .ok (s, r) → pre q = s) →
      L.map (result step op pre) = rs.map .ok := by
  induction L with
  | nil => intro s0 s rs h _ _; simp [oneByOne] at h; simp [h.2]
  | cons p L ih =>
    intro s0 s rs h h0 hn
    have hp := h0 p rfl
    simp only [List.map_cons, oneByOne, ← hp] at h
    cases hs : step (pre p) (op p) with
    | ok x =>
      obtain ⟨s1, r⟩ := x
      simp only [hs] at h
      cases ho : oneByOne step s1 (L.map op) with
      | ok y =>
        obtain ⟨s2, rs2⟩ := y
        simp only [ho, Outcome.ok.injEq, Prod.mk.injEq] at h
        obtain ⟨rfl, rfl⟩ := h
        have := ih ho (fun q hq => hn 0 p q rfl (by simpa using hq) s1 r hs) fun n a b ha hb => hn (n + 1) a b (by simpa using ha) (by simpa using hb)
        rw [List.map_cons, List.map_cons, this]
        congr 1
        rw [result, hs]; rfl
      | ub => simp [ho] at h
      | panic => simp [ho] at h
    | ub => simp [hs] at h
    | panic => simp [hs] at h

/-- **C153, any object.** Threads share an object of any kind, and there is no data race on it.  Then there is an order of all their operations,
the order in which they happen, so that each gives the result it gives if they are done one after the other, up to the first that is undefined
if they are. -/
theorem C153_any_object {step : S → O → Outcome (S × R)} {s0 : S} {threads : List (List (Event D δ))} {d : δ} {op : Nat × Nat → O}
    {pre : Nat × Nat → S} (hp : Plain step s0 threads d op pre) (hr : ¬ Race threads d) :
    ∃ L : List (Nat × Nat), L.Nodup ∧ (∀ p, p ∈ L ↔ IsOp threads d p) ∧ L.Pairwise (Before threads) ∧
      ∀ m s rs, oneByOne step s0 ((L.take m).map op) = .ok (s, rs) → (L.take m).map (result step op pre) = rs.map .ok := by
  obtain ⟨L, h1, h2, h3⟩ := in_order hp hr
  obtain ⟨h4, h5⟩ := finds hp h2 h3
  refine ⟨L, h1, h2, h3, fun m s rs h => oneByOne_results (L.take m) h (fun p hq => h4 p ?_) fun n p q hn hq => h5 n p q ?_ ?_⟩
  · rw [List.getElem?_take] at hq; split at hq <;> simp_all
  · rw [List.getElem?_take] at hn; split at hn <;> simp_all
  · rw [List.getElem?_take] at hq; split at hq <;> simp_all

/-! ## The queue -/

theorem step_rep {c : Cfg α} (hN : c.N < szMod) {q : Queue α} {l : List α} (h : Rep c.N q l) (o : Op α) :
    ∃ q', step c q o = .ok (q', (specStep c.N l o).2) ∧ Rep c.N q' (specStep c.N l o).1 := by
  have hsz := h.size
  have hle := h.le
  cases o with
  | send x =>
    by_cases hf : l.length < c.N
    · obtain ⟨q', h1, h2⟩ := CxQueue.step_refines (o := .push x) hN h (if_pos hf)
      refine ⟨q', ?_, by simpa [specStep, hf] using h2⟩
      simp only [CxQueue.step] at h1
      cases hpu : CxQueue.push c q x with
      | ok r =>
        obtain ⟨q1, n⟩ := r
        rw [hpu] at h1
        have : q1 = q' := by
          have h1 : Outcome.ok (q1, CxQueue.Out.val x, n) = .ok (q', .val x, 0) := h1
          cases h1; rfl
        subst this
        have hne : (q.size == c.N) = false := by simp; omega
        simp only [step, hne, hpu, specStep, hf, if_true]
        rfl
      | ub => rw [hpu] at h1; cases h1
      | panic => rw [hpu] at h1; cases h1
    · have he : (q.size == c.N) = true := by simp; omega
      exact ⟨q, by simp [step, he, specStep, hf], by simpa [specStep, hf] using h⟩
  | receive =>
    cases l with
    | nil => 
      have he : (q.size == 0) = true := by simpa using hsz
      exact ⟨q, by simp [step, he, specStep], h⟩
    | cons x l =>
      obtain ⟨q', h1, h2⟩ := CxQueue.step_refines (o := .pop) hN h rfl
      refine ⟨q', ?_, h2⟩
      simp only [CxQueue.step] at h1
      cases hpo : CxQueue.pop c q with
      | ok r =>
        obtain ⟨⟨q1, y⟩, n⟩ := r
        rw [hpo] at h1
        have : q1 = q' ∧ y = x := by
          have h1 : Outcome.ok (q1, CxQueue.Out.val y, n) = .ok (q', .val x, 0) := h1
          cases h1; exact ⟨rfl, rfl⟩
        obtain ⟨rfl, rfl⟩ := this
        have hne : (q.size == 0) = false := by simp at hsz ⊢; omega
        simp only [step, hne, hpo, specStep]
        rfl
      | ub => rw [hpo] at h1; cases h1
      | panic => rw [hpo] at h1; cases h1

theorem after_succ {N : Nat} {os : List (Op α)} {n : Nat} {o : Op α} (h : os[n]? = some o) :
    after N (os.take (n + 1)) = (specStep N (after N (os.take n)) o).1 := by
  rw [List.take_add_one, h]
  simp [after]

theorem result_ok {step : S → O → Outcome (S × R)} {op : Nat × Nat → O} {pre : Nat × Nat → S} {p : Nat × Nat} {s : S} {r : R}
    (h : step (pre p) (op p) = .ok (s, r)) : result step op pre p = .ok r := by
  rw [result, h]; rfl

/-- **C153, as if one after the other.** Threads share a queue, and there is no data race on it.  Then there is an order of all their operations,
the order in which they happen, so that each gives the result it would give if they had been done one after the other on a list;
none is undefined. -/
theorem C153_sequential {c : Cfg α} (hN : c.N < szMod) {x0 : α} {threads : List (List (Event D δ))} {d : δ} {op : Nat × Nat → Op α}
    {pre : Nat × Nat → Queue α} (hp : Plain (step c) (CxQueue.init c.N x0) threads d op pre) (hr : ¬ Race threads d) :
    ∃ L, Sequential c.N threads d op (result (step c) op pre) L := by
  obtain ⟨L, h1, h2, h3⟩ := in_order hp hr
  obtain ⟨h4, h5⟩ := finds hp h2 h3
  have hrep : ∀ (n : Nat) p, L[n]? = some p → Rep c.N (pre p) (after c.N ((L.map op).take n)) := by
    intro n
    induction n with
    | zero => intro p h; rw [h4 p h]; simpa [after] using rep_init c.N x0
    | succ n ih =>
      intro p h
      obtain ⟨h6, _⟩ := List.getElem?_eq_some_iff.mp h
      have hq : L[n]? = some L[n] := List.getElem?_eq_getElem (by omega)
      obtain ⟨q', e1, e2⟩ := step_rep hN (ih _ hq) (op L[n])
      rw [h5 n _ p hq h _ _ e1, after_succ (o := op L[n]) (by rw [List.getElem?_map, hq]; rfl)]
      exact e2
  refine ⟨L, h1, h2, h3, fun n p h => ?_⟩
  obtain ⟨q', e1, _⟩ := step_rep hN (hrep n p h) (op p)
  exact result_ok e1

theorem after_length (N : Nat) (os : List (Op α)) : (after N os).length ≤ N := by
  suffices ∀ l : List α, l.length ≤ N → (os.foldl (fun l o => (specStep N l o).1) l).length ≤ N from this [] (by simp)
  induction os with
  | nil => exact fun l h => h
  | cons o os ih =>
    intro l h
    rw [List.foldl_cons]
    apply ih
    cases o with
    | send x =>
      simp only [specStep]
      split
      · simp; omega
      · exact h
    | receive => cases l <;> simp [specStep] at h ⊢ <;> omega

/-- The operation has sent. -/
def didSend (res : Nat × Nat → Outcome (Res α)) (p : Nat × Nat) : Bool := match res p with
  | .ok .sent => true
  | _ => false

/-- The operation has received. -/
def didGet (res : Nat × Nat → Outcome (Res α)) (p : Nat × Nat) : Bool := match res p with
  | .ok (.got _) => true
  | _ => false

theorem fifo_of {N : Nat} {threads : List (List (Event D δ))} {d : δ} {op : Nat × Nat → Op α} {res : Nat × Nat → Outcome (Res α)}
    {L : List (Nat × Nat)} (h : Sequential N threads d op res L) : Fifo N threads d op res := by
  have key : ∀ n ≤ L.length, ((L.take n).filter (didGet res)).length ≤ ((L.take n).filter (didSend res)).length ∧
      (((L.take n).filter (didSend res)).drop ((L.take n).filter (didGet res)).length).map op = (after N ((L.map op).take n)).map .send ∧
      ∀ (k : Nat) p, ((L.take n).filter (didGet res))[k]? = some p → ∃ s x, ((L.take n).filter (didSend res))[k]? = some s ∧ op s = .send x ∧
        res p = .ok (.got x) ∧ Before threads s p := by
    intro n
    induction n with
    | zero => intro _; simp [after]
    | succ n ih =>
      intro hn
      obtain ⟨i1, i2, i3⟩ := ih (by omega)
      have hp : L[n]? = some L[n] := List.getElem?_eq_getElem (by omega)
      have hres := h.results n _ hp
      have hbef : ∀ s ∈ L.take n, Before threads s L[n] := by
        intro s hs
        obtain ⟨m, hm, rfl⟩ := List.mem_iff_getElem.mp hs
        have := List.length_take_le n L
        rw [List.getElem_take]
        exact List.pairwise_iff_getElem.mp h.order m n (by omega) (by omega) (by rw [List.length_take] at hm; omega)
      rw [after_succ (o := op L[n]) (by rw [List.getElem?_map, hp]; rfl), List.take_add_one, hp]
      generalize L[n] = p at *
      generalize hA : after N ((L.map op).take n) = A at *
      generalize hS : (L.take n).filter (didSend res) = Sn at *
      generalize hG : (L.take n).filter (didGet res) = G at *
      simp only [Option.toList_some, List.filter_append, hS, hG]
      cases ho : op p with
      | send x =>
        rw [ho] at hres
        simp only [specStep] at hres ⊢
        by_cases hf : A.length < N
        · rw [if_pos hf] at hres ⊢
          have e1 : [p].filter (didSend res) = [p] := by simp [didSend, hres]
          have e2 : [p].filter (didGet res) = [] := by simp [didGet, hres]
          rw [e1, e2, List.append_nil, List.drop_append_of_le_length i1]
          refine ⟨by simp; omega, by simp [i2, ho], fun k p' hk => ?_⟩
          obtain ⟨s, x, j1, j2⟩ := i3 k p' hk
          exact ⟨s, x, by rw [List.getElem?_append_left (List.getElem?_eq_some_iff.mp j1).1]; exact j1, j2⟩
        · rw [if_neg hf] at hres ⊢
          have e1 : [p].filter (didSend res) = [] := by simp [didSend, hres]
          have e2 : [p].filter (didGet res) = [] := by simp [didGet, hres]
          rw [e1, e2, List.append_nil, List.append_nil]
          exact ⟨i1, i2, i3⟩
      | receive =>
        rw [ho] at hres
        cases A with
        | nil =>
          simp only [specStep] at hres ⊢
          have e1 : [p].filter (didSend res) = [] := by simp [didSend, hres]
          have e2 : [p].filter (didGet res) = [] := by simp [didGet, hres]
          rw [e1, e2, List.append_nil, List.append_nil]
          exact ⟨i1, i2, i3⟩
        | cons x A =>
          simp only [specStep] at hres ⊢
          have e1 : [p].filter (didSend res) = [] := by simp [didSend, hres]
          have e2 : [p].filter (didGet res) = [p] := by simp [didGet, hres]
          rw [e1, e2, List.append_nil]
          have hlt : G.length < Sn.length := by
            have := congrArg List.length i2
            simp at this; omega
          rw [List.drop_eq_getElem_cons hlt, List.map_cons, List.map_cons, List.cons.injEq] at i2
          refine ⟨by simp; omega, by simpa using i2.2, fun k p' hk => ?_⟩
          rcases Nat.lt_or_ge k G.length with hkl | hkl
          · rw [List.getElem?_append_left hkl] at hk
            exact i3 k p' hk
          · rw [List.getElem?_append_right hkl] at hk
            have hk0 : k = G.length := by
              have := (List.getElem?_eq_some_iff.mp hk).1
              simp at this; omega
            subst hk0
            simp at hk
            subst hk
            refine ⟨Sn[G.length], x, List.getElem?_eq_getElem hlt, i2.1, hres, hbef _ ?_⟩
            have : Sn[G.length] ∈ (L.take n).filter (didSend res) := by rw [hS]; exact List.getElem_mem _
            exact (List.mem_filter.mp this).1
  obtain ⟨k1, k2, k3⟩ := key L.length (Nat.le_refl _)
  rw [List.take_length] at k1 k2 k3
  refine ⟨L.filter (didSend res), L.filter (didGet res), h.nodup.filter _, h.nodup.filter _, fun p => ?_, fun p => ?_,
    h.order.sublist List.filter_sublist, h.order.sublist List.filter_sublist, fun k p hk => ?_, ?_⟩
  · rw [List.mem_filter, h.all]
    refine and_congr Iff.rfl ?_
    unfold didSend
    split
    · rename_i e; simp [e]
    · rename_i e; simp; exact e
  · rw [List.mem_filter, h.all]
    refine and_congr Iff.rfl ?_
    unfold didGet
    split
    · rename_i x e; simp [e]
    · rename_i e; simp; exact e
  · obtain ⟨s, x, j1, j2, j3, j4⟩ := k3 k p hk
    refine ⟨s, x, j1, j2, j3, fun l l' e e' he he' hl hl' => ?_⟩
    have hs := (h.all s).mp (List.mem_filter.mp (List.mem_of_getElem? j1)).1
    have hp := (h.all p).mp (List.mem_filter.mp (List.mem_of_getElem? hk)).1
    exact hb_from j4 hs hp he he' hl hl'
  · have := congrArg List.length k2
    have h2 := after_length N ((L.map op).take L.length)
    simp at this h2
    omega

/-- **C153, a channel.** Threads share a queue, and there is no data race on it.  Then each value that is received has been sent, it is received
once and in the order in which the values were sent, not more than the capacity are under way; and what a thread has done before it sent
a value happens before what the thread does that has received it. -/
theorem C153_channel {c : Cfg α} (hN : c.N < szMod) {x0 : α} {threads : List (List (Event D δ))} {d : δ} {op : Nat × Nat → Op α}
    {pre : Nat × Nat → Queue α} (hp : Plain (step c) (CxQueue.init c.N x0) threads d op pre) (hr : ¬ Race threads d) :
    Fifo c.N threads d op (result (step c) op pre) := by
  obtain ⟨L, hL⟩ := C153_sequential hN hp hr
  exact fifo_of hL

/-- **C153, locks.** A position of an `atomic_bitset` is used as a lock, and threads use the queue only while they hold it: the queue is a channel,
whatever else the threads do. -/
theorem C153_bit_lock (hD : D.Ok) {c0 : (k : κ) → BitVec (D.w k)} {v0 : (a : γ) → BitVec (D.C a).w}
    {threads : List (List (Event D δ))} (hx : Histories c0 v0 threads) (hl : Legal threads) (k : κ) (i : Nat) (hi : i < D.N k)
    (hclear : (c0 k).getLsbD i = false) (hu : LockUse i (part (Event.bits? k) threads)) (d : δ)
    (hd : ∀ t a x, eventAt threads t a = some (.plain d x) → Holding threads k i t a)
    {c : Cfg α} (hN : c.N < szMod) {x0 : α} {op : Nat × Nat → Op α} {pre : Nat × Nat → Queue α}
    (hp : Plain (step c) (CxQueue.init c.N x0) threads d op pre) :
    (∃ L, Sequential c.N threads d op (result (step c) op pre) L) ∧ Fifo c.N threads d op (result (step c) op pre) :=
  have hr := C138_lock_data hD hx hl k i hi hclear hu d hd
  ⟨C153_sequential hN hp hr, C153_channel hN hp hr⟩

/-- **C153, tickets.** Threads use the queue only while they have their turn, by tickets of an `atomic`: the queue is a channel, and the operations
give the results they would give if they had been done in the order of the tickets. -/
theorem C153_ticket_lock {a b : γ} (hD : D.Ok) {c0 : (k : κ) → BitVec (D.w k)} {v0 : (a : γ) → BitVec (D.C a).w}
    {threads : List (List (Event D δ))} (hx : Histories c0 v0 threads) (hu : TicketUse threads a b) (h0 : v0 b = 0#_) (d : δ)
    (hd : ∀ t x m, eventAt threads t x = some (.plain d m) → ∃ k, HasTurn threads a b t x k)
    {c : Cfg α} (hN : c.N < szMod) {x0 : α} {op : Nat × Nat → Op α} {pre : Nat × Nat → Queue α}
    (hp : Plain (step c) (CxQueue.init c.N x0) threads d op pre) :
    (∃ L, Sequential c.N threads d op (result (step c) op pre) L ∧
      L.Pairwise fun p q => ∀ k k', HasTurn threads a b p.1 p.2 k → HasTurn threads a b q.1 q.2 k' → k ≤ k') ∧
    Fifo c.N threads d op (result (step c) op pre) := by
  have hr := C149_ticket_lock hD hx hu h0 d hd
  obtain ⟨L, hL⟩ := C153_sequential hN hp hr
  refine ⟨⟨L, hL, hL.order.imp_of_mem fun {p q} hpL hqL hpq k k' hk hk' => Nat.le_of_not_lt fun hlt => ?_⟩, fifo_of hL⟩
  have := C149_in_order hD hx hu h0 ((hL.all q).mp hqL) ((hL.all p).mp hpL) hk' hk hlt
  exact hp.acyclic p (HB.trans _ _ _ _ _ _ hpq this)

/-! ## Examples -/

/-- Places for three numbers. -/
def three : Cfg Nat := ⟨3, .safe, .noreturn, id⟩

/-- The first thread sends, the second one receives, each in its turn. -/
def exchange (p : Nat × Nat) : Op Nat := if p.1 = 0 then .send 5 else .receive

/-- What they find. -/
def found (p : Nat × Nat) : Queue Nat := if p.1 = 0 then CxQueue.init 3 0 else ⟨[5, 0, 0], 0, 0, 1⟩

theorem inTurn_ops {p : Nat × Nat} (h : IsOp (inTurn .release) 3 p) : p = (0, 2) ∨ p = (1, 3) := by
  obtain ⟨t, n⟩ := p
  match t, n with
  | 0, 2 => exact .inl rfl
  | 1, 3 => exact .inr rfl
  | 0, 0 | 0, 1 | 0, 3 | 1, 0 | 1, 1 | 1, 2 => cases h
  | 0, _ + 4 | 1, _ + 4 => cases h
  | _ + 2, _ => simp [IsOp, eventAt, inTurn] at h

/-- The first thread comes first. -/
def place (t n : Nat) : Nat := 10 * t + n

theorem inTurn_forward {t n t' n' : Nat} (h : HB (inTurn .release) t n t' n') : place t n < place t' n' := by
  induction h with
  | same t n n' _ _ _ _ h => simp [place]; omega
  | bits k t n t' n' r r' h =>
    match t, n with
    | 0, 0 | 0, 1 | 0, 2 | 0, 3 | 1, 0 | 1, 1 | 1, 2 | 1, 3 => cases h
    | 0, _ + 4 | 1, _ + 4 => cases h
    | _ + 2, _ => simp [eventAt, inTurn] at h
  | num a t n t' n' r r' h h' hs =>
    obtain ⟨q, q', _, _, _, _, _, _, _, _, j, c1, c2, _, _, _, _, _, _, hj, hlt, _⟩ := hs
    rw [part_callAt h (num?_eq a r)] at c1
    rw [part_callAt h' (num?_eq a r')] at c2
    cases c1
    cases c2
    have ht : (t = 0 ∧ n < 4) ∨ (t = 1 ∧ n < 4) := by
      match t, n with
      | 0, 0 | 0, 1 | 0, 2 | 0, 3 | 1, 0 | 1, 1 | 1, 2 | 1, 3 => simp
      | 0, _ + 4 | 1, _ + 4 => cases h
      | _ + 2, _ => simp [eventAt, inTurn] at h
    have ht' : (t' = 0 ∧ n' < 4) ∨ (t' = 1 ∧ n' < 4) := by
      match t', n' with
      | 0, 0 | 0, 1 | 0, 2 | 0, 3 | 1, 0 | 1, 1 | 1, 2 | 1, 3 => simp
      | 0, _ + 4 | 1, _ + 4 => cases h'
      | _ + 2, _ => simp [eventAt, inTurn] at h'
    rcases ht with ⟨rfl, hn⟩ | ⟨rfl, hn⟩ <;> rcases ht' with ⟨rfl, hn'⟩ | ⟨rfl, hn'⟩
    · exfalso
      match n', hn' with
      | 0, _ => cases h'; simp [Conc.Acc.pos] at hlt
      | 1, _ => cases h'; simp [Conc.Acc.pos] at hlt
      | 2, _ => cases h'
      | 3, _ => cases h'; simp [Conc.Acc.pos] at hlt
    · simp [place]; omega
    · exfalso
      match n', hn' with
      | 0, _ => cases h'; simp [Conc.Acc.pos] at hlt
      | 1, _ => cases h'; simp [Conc.Acc.pos] at hlt
      | 2, _ => cases h'
      | 3, _ => cases h'; simp [Conc.Acc.pos] at hlt
    · exfalso
      match n, hn with
      | 0, _ =>
        cases h
        cases hj
        match n', hn' with
        | 0, _ => cases h'; simp [Conc.Acc.pos] at hlt
        | 1, _ => cases h'
        | 2, _ => cases h'
        | 3, _ => cases h'
      | 1, _ => cases h; cases hj
      | 2, _ => cases h; cases hj
      | 3, _ => cases h
  | trans _ _ _ _ _ _ _ _ ih ih' => omega

theorem inTurn_plain : Plain (step three) (CxQueue.init 3 0) (inTurn .release) 3 exchange found := by
  have hb : Before (inTurn .release) (0, 2) (1, 3) :=
    C149_in_order desk_ok (inTurn_histories (.inl rfl)) inTurn_use rfl rfl rfl (inTurn_first _ (by decide) (by decide)) (inTurn_second _)
      (by decide)
  refine ⟨fun p h => absurd (inTurn_forward h) (Nat.lt_irrefl _), fun p hp hno => ?_, fun p q hp hq hpq _ s r hs => ?_⟩
  · rcases inTurn_ops hp with rfl | rfl
    · rfl
    · exact absurd hb (hno (0, 2) rfl)
  · have := inTurn_forward hpq
    rcases inTurn_ops hp with rfl | rfl <;> rcases inTurn_ops hq with rfl | rfl
    · simp [place] at this
    · have e : step three (found (0, 2)) (exchange (0, 2)) = .ok (⟨[5, 0, 0], 0, 0, 1⟩, .sent) := by decide
      rw [e] at hs
      cases hs
      rfl
    · simp [place] at this
    · simp [place] at this

example : Fifo 3 (inTurn .release) 3 exchange (result (step three) exchange found) := by
  refine (C153_ticket_lock desk_ok (inTurn_histories (.inl rfl)) inTurn_use rfl 3 (fun t x m h => ?_) (c := three) (by decide)
    inTurn_plain).2
  match t, x with
  | 0, 2 => exact ⟨0, inTurn_first _ (by decide) (by decide)⟩
  | 1, 3 => exact ⟨1, inTurn_second _⟩
  | 0, 0 | 0, 1 | 0, 3 | 1, 0 | 1, 1 | 1, 2 => cases h
  | 0, _ + 4 | 1, _ + 4 => cases h
  | _ + 2, _ => simp [eventAt, inTurn] at h

example : result (step three) exchange found (1, 3) = .ok (.got 5) := by decide

theorem guarded_ops {p : Nat × Nat} (h : IsOp guarded 4 p) : p = (0, 1) ∨ p = (1, 2) := by
  obtain ⟨t, n⟩ := p
  match t, n with
  | 0, 1 => exact .inl rfl
  | 1, 2 => exact .inr rfl
  | 0, 0 | 0, 2 | 1, 0 | 1, 1 => cases h
  | 0, _ + 3 | 1, _ + 3 => cases h
  | _ + 2, _ => simp [IsOp, eventAt, guarded] at h

theorem guarded_forward {t n t' n' : Nat} (h : HB guarded t n t' n') : place t n < place t' n' := by
  induction h with
  | same t n n' _ _ _ _ h => simp [place]; omega
  | num a t n t' n' r r' h h' hs =>
    obtain ⟨q, q', _, _, _, _, _, _, _, _, j, c1, c2, _, _, _, _, _, _, hj, hlt, _⟩ := hs
    rw [part_callAt h (num?_eq a r)] at c1
    cases c1
    match t, n with
    | 1, 0 => cases h; cases hj
    | 0, 0 | 0, 1 | 0, 2 | 1, 1 | 1, 2 => cases h
    | 0, _ + 3 | 1, _ + 3 => cases h
    | _ + 2, _ => simp [eventAt, guarded] at h
  | bits a t n t' n' r r' h h' hs =>
    obtain ⟨q, q', _, _, _, _, _, _, _, _, j, c1, c2, _, _, _, _, _, _, hj, hlt, _⟩ := hs
    rw [part_callAt h (bits?_eq a r)] at c1
    rw [part_callAt h' (bits?_eq a r')] at c2
    cases c1
    cases c2
    have hw : (t, n, j) = (0, 0, 0) ∨ (t, n, j) = (0, 2, 1) ∨ (t, n, j) = (1, 1, 2) := by
      match t, n with
      | 0, 0 => cases h; cases hj; simp
      | 0, 2 => cases h; cases hj; simp
      | 1, 1 => cases h; cases hj; simp
      | 0, 1 | 1, 0 | 1, 2 => cases h
      | 0, _ + 3 | 1, _ + 3 => cases h
      | _ + 2, _ => simp [eventAt, guarded] at h
    have hr : (t', n', r'.acc.pos) = (0, 0, 0) ∨ (t', n', r'.acc.pos) = (0, 2, 1) ∨ (t', n', r'.acc.pos) = (1, 1, 2) := by
      match t', n' with
      | 0, 0 => cases h'; simp [Conc.Acc.pos]
      | 0, 2 => cases h'; simp [Conc.Acc.pos]
      | 1, 1 => cases h'; simp [Conc.Acc.pos]
      | 0, 1 | 1, 0 | 1, 2 => cases h'
      | 0, _ + 3 | 1, _ + 3 => cases h'
      | _ + 2, _ => simp [eventAt, guarded] at h'
    simp only [Prod.mk.injEq] at hw hr
    simp only [place]
    omega
  | trans _ _ _ _ _ _ _ _ ih ih' => omega

theorem guarded_plain : Plain (step three) (CxQueue.init 3 0) guarded 4 exchange found := by
  have hb : Before guarded (0, 1) (1, 2) := by
    refine Classical.byContradiction fun h => C138_lock_data two_ok guarded_histories guarded_legal () 2 (by decide) rfl guarded_use 4
      guarded_holding ⟨0, 1, true, 1, 2, true, rfl, rfl, .inl rfl, by decide, h, fun h' => ?_⟩
    have := guarded_forward h'
    simp [place] at this
  refine ⟨fun p h => absurd (guarded_forward h) (Nat.lt_irrefl _), fun p hp hno => ?_, fun p q hp hq hpq _ s r hs => ?_⟩
  · rcases guarded_ops hp with rfl | rfl
    · rfl
    · exact absurd hb (hno (0, 1) rfl)
  · have := guarded_forward hpq
    rcases guarded_ops hp with rfl | rfl <;> rcases guarded_ops hq with rfl | rfl
    · simp [place] at this
    · have e : step three (found (0, 1)) (exchange (0, 1)) = .ok (⟨[5, 0, 0], 0, 0, 1⟩, .sent) := by decide
      rw [e] at hs
      cases hs
      rfl
    · simp [place] at this
    · simp [place] at this

example : Fifo 3 guarded 4 exchange (result (step three) exchange found) :=
  (C153_bit_lock two_ok guarded_histories guarded_legal () 2 (by decide) rfl guarded_use 4 guarded_holding (c := three) (by decide)
    guarded_plain).2

end Verif.Channel
