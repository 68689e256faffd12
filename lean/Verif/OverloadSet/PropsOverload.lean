import Verif.OverloadSet.Spec
import Verif.Priority.Props

/-!
# Properties of `stdx::overload` (C152)
-/

namespace Verif.OverloadSet

open Verif.Priority (notWorse someBetter better better_asymm Result)

variable {A R σ : Type}

theorem notWorse_iff (r s : List Nat) : notWorse r s = true ↔ ∀ k (h : k < r.length) (h' : k < s.length), r[k] ≤ s[k] := by
  induction r generalizing s with
  | nil => simp [notWorse]
  | cons a as ih =>
    cases s with
    | nil => simp [notWorse]
    | cons b bs =>
      simp only [notWorse, Bool.and_eq_true, decide_eq_true_eq, ih]
      constructor
      · rintro ⟨h0, h⟩ k hk hk'
        cases k with
        | zero => exact h0
        | succ k => exact h k (by simpa using hk) (by simpa using hk')
      · intro h
        exact ⟨h 0 (by simp) (by simp), fun k hk hk' => h (k + 1) (by simpa using hk) (by simpa using hk')⟩

theorem someBetter_iff (r s : List Nat) : someBetter r s = true ↔ ∃ k, ∃ (h : k < r.length) (h' : k < s.length), r[k] < s[k] := by
  induction r generalizing s with
  | nil => simp [someBetter]
  | cons a as ih =>
    cases s with
    | nil => simp [someBetter]
    | cons b bs =>
      simp only [someBetter, Bool.or_eq_true, decide_eq_true_eq, ih]
      constructor
      · rintro (h | ⟨k, h, h', hk⟩)
        · exact ⟨0, by simp, by simp, h⟩
        · exact ⟨k + 1, by simpa using h, by simpa using h', hk⟩
      · rintro ⟨k, h, h', hk⟩
        cases k with
        | zero => exact .inl hk
        | succ k => exact .inr ⟨k, by simpa using h, by simpa using h', hk⟩

theorem better_iff {tie : Nat → Nat → Bool} {i j : Nat} {r s : List Nat} : better tie i j r s = true ↔ Fits tie i j r s := by
  have hn : someBetter r s = false → notWorse r s = true → notWorse s r = true := by
    intro h1 h2
    rw [notWorse_iff] at h2 ⊢
    intro k hk hk'
    have := h2 k hk' hk
    by_cases hlt : r[k] < s[k]
    · rw [(someBetter_iff r s).mpr ⟨k, hk', hk, hlt⟩] at h1; cases h1
    · omega
  simp only [better, Bool.and_eq_true, Bool.or_eq_true, Fits, notWorse_iff r s, someBetter_iff r s]
  constructor
  · rintro ⟨h1, h2 | ⟨_, h2⟩⟩
    · exact ⟨h1, .inl h2⟩
    · exact ⟨h1, .inr h2⟩
  · rintro ⟨h1, h2⟩
    refine ⟨h1, ?_⟩
    by_cases hb : ∃ k, ∃ (h : k < r.length) (h' : k < s.length), r[k] < s[k]
    · exact .inl hb
    · refine .inr ⟨hn ?_ ((notWorse_iff r s).mpr h1), h2.resolve_left hb⟩
      cases hx : someBetter r s with
      | false => rfl
      | true => exact absurd ((someBetter_iff r s).mp hx) hb

theorem mem_viable {c : Bool} {a : A} {os : List (Op A)} {i : Nat} {r : List Nat} :
    (i, r) ∈ viable c a os ↔ ∃ o ∈ os, o.id = i ∧ ranks c a o = some r := by
  simp only [viable, List.mem_filterMap, Option.map_eq_some_iff, Prod.mk.injEq]
  constructor
  · rintro ⟨o, ho, r', hr, h1, rfl⟩; exact ⟨o, ho, h1, hr⟩
  · rintro ⟨o, ho, h1, hr⟩; exact ⟨o, ho, r, hr, h1, rfl⟩

theorem id_inj {tie : Nat → Nat → Bool} {os : List (Op A)} (h : Ok tie os) {o o' : Op A} (ho : o ∈ os) (ho' : o' ∈ os) (he : o.id = o'.id) :
    o = o' := by
  have := h.nodup
  obtain ⟨n, hn, rfl⟩ := List.mem_iff_getElem.mp ho
  obtain ⟨m, hm, rfl⟩ := List.mem_iff_getElem.mp ho'
  have := (List.getElem_inj (h₀ := by simpa using hn) (h₁ := by simpa using hm) this).mp (by simpa using he)
  subst this; rfl

/-- What `resolve` looks for, in terms of the ranks with the object. -/
def Picks (tie : Nat → Nat → Bool) (c : Bool) (os : List (Op A)) (a : A) (i : Nat) : Prop :=
  ∃ o ∈ os, o.id = i ∧ ∃ r, ranks c a o = some r ∧ ∀ o' ∈ os, o'.id ≠ i → ∀ s, ranks c a o' = some s → Fits tie i o'.id r s

theorem members_eq (fs : List (Callee A)) : members fs = functions fs := by
  induction fs with
  | nil => rfl
  | cons f fs ih => simp only [members, functions, List.flatMap_cons] at ih ⊢; rw [ih]

theorem resolve_calls {tie : Nat → Nat → Bool} {c : Bool} {fs : List (Callee A)} (hk : Ok tie (members fs)) {a : A} {i : Nat} :
    resolve tie c fs a = .calls i ↔ Picks tie c (members fs) a i := by
  have hall : ∀ i r, ((viable c a (members fs)).all (fun (j, s) => i == j || better tie i j r s)) = true ↔
      ∀ j s, (j, s) ∈ viable c a (members fs) → i = j ∨ better tie i j r s = true := by
    intro i r; simp [List.all_eq_true]
  have hpick : ∀ i, Picks tie c (members fs) a i ↔ ∃ r, (i, r) ∈ viable c a (members fs) ∧
      ∀ j s, (j, s) ∈ viable c a (members fs) → i = j ∨ better tie i j r s = true := by
    intro i
    constructor
    · rintro ⟨o, ho, hi, r, hr, h⟩
      refine ⟨r, mem_viable.mpr ⟨o, ho, hi, hr⟩, fun j s hj => ?_⟩
      obtain ⟨o', ho', rfl, hs⟩ := mem_viable.mp hj
      by_cases he : o'.id = i
      · exact .inl he.symm
      · exact .inr (better_iff.mpr (h o' ho' he s hs))
    · rintro ⟨r, hm, h⟩
      obtain ⟨o, ho, hi, hr⟩ := mem_viable.mp hm
      refine ⟨o, ho, hi, r, hr, fun o' ho' he s hs => ?_⟩
      rcases h o'.id s (mem_viable.mpr ⟨o', ho', rfl, hs⟩) with h | h
      · exact absurd h.symm he
      · exact better_iff.mp h
  rw [hpick]
  unfold resolve
  dsimp only
  cases hf : (viable c a (members fs)).find? (fun (i, r) => (viable c a (members fs)).all (fun (j, s) => i == j || better tie i j r s)) with
  | none =>
    have hno := List.find?_eq_none.mp hf
    constructor
    · intro h
      dsimp only at h
      split at h <;> simp at h
    · rintro ⟨r, hm, hb⟩
      exact absurd ((hall i r).mpr hb) (hno (i, r) hm)
  | some ir =>
    obtain ⟨i', r'⟩ := ir
    have hm := List.mem_of_find?_eq_some hf
    have hb := (hall i' r').mp (by have := List.find?_some hf; exact this)
    simp only [Result.calls.injEq]
    constructor
    · rintro rfl; exact ⟨r', hm, hb⟩
    · rintro ⟨r, hm2, hb2⟩
      rcases hb i r hm2 with h | h
      · exact h
      · rcases hb2 i' r' hm with h2 | h2
        · exact h2.symm
        · rw [better_asymm hk.asymm h] at h2; cases h2

theorem resolve_noMatch {tie : Nat → Nat → Bool} {c : Bool} {fs : List (Callee A)} {a : A} :
    resolve tie c fs a = .noMatch ↔ ∀ o ∈ members fs, ranks c a o = none := by
  have hv : viable c a (members fs) = [] ↔ ∀ o ∈ members fs, ranks c a o = none := by
    simp [viable, List.filterMap_eq_nil_iff]
  rw [← hv]
  unfold resolve
  dsimp only
  cases hf : (viable c a (members fs)).find? (fun (i, r) => (viable c a (members fs)).all (fun (j, s) => i == j || better tie i j r s)) with
  | none =>
    cases hv : viable c a (members fs) with
    | nil => simp
    | cons a as => simp
  | some ir =>
    have hm := List.mem_of_find?_eq_some hf
    constructor
    · intro h; simp at h
    · intro h; rw [h] at hm; simp at hm

theorem fits_cons {tie : Nat → Nat → Bool} {i j d : Nat} {r s : List Nat} : Fits tie i j (d :: r) (d :: s) ↔ Fits tie i j r s := by
  rw [← better_iff, ← better_iff]
  simp [better, notWorse, someBetter]

/-- **C152, calls, partial.** If all functions that take the arguments are const, or all are not (mutable lambda expressions), then a call on
`overload{fs...}` calls the function that fits the arguments best, as if they were overloaded functions, and does not compile if there is none.
A const object offers only the functions that are const.  Missing: const and mutable functions together, see `C152_mutable_violated`. -/
theorem C152_call_partial {tie : Nat → Nat → Bool} {fs : List (Callee A)} (hk : Ok tie (functions fs)) {a : A} (i : Nat) :
    (resolve tie true fs a = .calls i ↔ Best tie (fun o => o.const = true) (functions fs) a i) ∧
    (∀ m, (∀ o ∈ functions fs, o.takes a ≠ none → o.const = m) →
      (resolve tie false fs a = .calls i ↔ Best tie (fun _ => True) (functions fs) a i)) := by
  simp only [← members_eq] at *
  constructor
  · rw [resolve_calls hk]
    have hr : ∀ o : Op A, ∀ r, ranks true a o = some r ↔ o.const = true ∧ ∃ r', o.takes a = some r' ∧ r = 0 :: r' := by
      intro o r
      cases hc : o.const <;> simp [ranks, object, hc]
      cases o.takes a <;> simp [eq_comm]
    constructor
    · rintro ⟨o, ho, hi, r, h1, h⟩
      obtain ⟨hc, r', hr', rfl⟩ := (hr o r).mp h1
      refine ⟨o, ho, hc, hi, r', hr', fun o' ho' hc' he s hs => ?_⟩
      exact fits_cons.mp (h o' ho' he (0 :: s) ((hr o' _).mpr ⟨hc', s, hs, rfl⟩))
    · rintro ⟨o, ho, hc, hi, r', hr', h⟩
      refine ⟨o, ho, hi, 0 :: r', (hr o _).mpr ⟨hc, r', hr', rfl⟩, fun o' ho' he s hs => ?_⟩
      obtain ⟨hc', s', hs', rfl⟩ := (hr o' s).mp hs
      exact fits_cons.mpr (h o' ho' hc' he s' hs')
  · intro m hm
    rw [resolve_calls hk]
    have hr : ∀ o ∈ members fs, ∀ r, ranks false a o = some r ↔ ∃ r', o.takes a = some r' ∧ r = (if m then 1 else 0) :: r' := by
      intro o ho r
      cases ht : o.takes a with
      | none => simp [ranks, ht]
      | some r' =>
        have := hm o ho (by simp [ht])
        cases m <;> simp [ranks, object, this, ht, eq_comm]
    constructor
    · rintro ⟨o, ho, hi, r, h1, h⟩
      obtain ⟨r', hr', rfl⟩ := (hr o ho r).mp h1
      refine ⟨o, ho, trivial, hi, r', hr', fun o' ho' _ he s hs => ?_⟩
      exact fits_cons.mp (h o' ho' he _ ((hr o' ho' _).mpr ⟨s, hs, rfl⟩))
    · rintro ⟨o, ho, _, hi, r', hr', h⟩
      refine ⟨o, ho, hi, _, (hr o ho _).mpr ⟨r', hr', rfl⟩, fun o' ho' he s hs => ?_⟩
      obtain ⟨s', hs', rfl⟩ := (hr o' ho' s).mp hs
      exact fits_cons.mpr (h o' ho' trivial he s' hs')

/-- **C152, no match.** A call has no match exactly if no function takes the arguments, on a const object no const function. -/
theorem C152_no_match {tie : Nat → Nat → Bool} {fs : List (Callee A)} {a : A} :
    (resolve tie false fs a = .noMatch ↔ ∀ o ∈ functions fs, o.takes a = none) ∧
    (resolve tie true fs a = .noMatch ↔ ∀ o ∈ functions fs, o.const = true → o.takes a = none) := by
  simp only [← members_eq] at *
  constructor <;> rw [resolve_noMatch] <;> refine forall₂_congr fun o _ => ?_ <;>
    cases hc : o.const <;> cases ht : o.takes a <;> simp [ranks, object, hc, ht]

theorem members_perm {fs gs : List (Callee A)} (h : fs.Perm gs) : (members fs).Perm (members gs) := h.flatMap_right _

/-- **C152, order.** The order in which the functions are given makes no difference, nor does putting some of them into an `overload` of their
own. -/
theorem C152_order {tie : Nat → Nat → Bool} {fs gs : List (Callee A)} (hk : Ok tie (functions fs)) (hp : (functions fs).Perm (functions gs))
    (c : Bool) (a : A) : resolve tie c fs a = resolve tie c gs a := by
  simp only [← members_eq] at *
  have hk' : Ok tie (members gs) := ⟨(hp.map Op.id).nodup_iff.mp hk.nodup, hk.asymm⟩
  have hpk : ∀ i, Picks tie c (members fs) a i ↔ Picks tie c (members gs) a i := by
    intro i; simp only [Picks, hp.mem_iff]
  have hc : ∀ i, resolve tie c fs a = .calls i ↔ resolve tie c gs a = .calls i := by
    intro i; rw [resolve_calls hk, resolve_calls hk', hpk]
  have hn : resolve tie c fs a = .noMatch ↔ resolve tie c gs a = .noMatch := by
    rw [resolve_noMatch, resolve_noMatch]
    exact ⟨fun h o ho => h o (hp.mem_iff.mpr ho), fun h o ho => h o (hp.mem_iff.mp ho)⟩
  cases h : resolve tie c fs a with
  | calls i => exact ((hc i).mp h).symm
  | noMatch => exact (hn.mp h).symm
  | ambiguous =>
    cases h' : resolve tie c gs a with
    | calls i => rw [(hc i).mpr h'] at h; cases h
    | noMatch => rw [hn.mpr h'] at h; cases h
    | ambiguous => rfl

/-- **C152, violated.** Let a const function fit the arguments best.  If a mutable function takes them too, however badly, then on an object that
is not const the one that fits best is not called; and if each of the mutable ones fits some argument worse, the call is ambiguous. -/
theorem C152_mutable_violated {tie : Nat → Nat → Bool} {fs : List (Callee A)} (hk : Ok tie (functions fs)) {a : A} {o o' : Op A} {r s : List Nat}
    (ho : o ∈ functions fs) (ho' : o' ∈ functions fs) (hc : o.const = true) (hc' : o'.const = false) (hr : o.takes a = some r)
    (hs : o'.takes a = some s) (hb : Best tie (fun _ => True) (functions fs) a o.id) :
    resolve tie false fs a ≠ .calls o.id ∧
    ((∀ p ∈ functions fs, p.const = false → ∀ q, p.takes a = some q → ∃ k, ∃ (h : k < r.length) (h' : k < q.length), r[k] < q[k]) →
      resolve tie false fs a = .ambiguous) := by
  simp only [← members_eq] at *
  have hro : ranks false a o = some (1 :: r) := by simp [ranks, object, hc, hr]
  have hro' : ranks false a o' = some (0 :: s) := by simp [ranks, object, hc', hs]
  have h1 : resolve tie false fs a ≠ .calls o.id := by
    intro h
    rw [resolve_calls hk] at h
    obtain ⟨p, hp, hi, rp, hrp, hbest⟩ := h
    have hpo : p = o := id_inj hk hp ho hi
    subst hpo
    rw [hro] at hrp; cases hrp
    have hne : o'.id ≠ p.id := by
      intro h'
      rw [id_inj hk ho' hp h', hc] at hc'; cases hc'
    have := (hbest o' ho' hne _ hro').1 0 (by simp) (by simp)
    simp at this
  refine ⟨h1, fun hlt => ?_⟩
  cases h : resolve tie false fs a with
  | ambiguous => rfl
  | noMatch => exact absurd ((C152_no_match.1.mp h) o (members_eq fs ▸ ho)) (by simp [hr])
  | calls i =>
    exfalso
    have he : o.id ≠ i := by rintro rfl; exact h1 h
    rw [resolve_calls hk] at h
    obtain ⟨p, hp, hi, rp, hrp, hbest⟩ := h
    have hf := hbest o ho he _ hro
    obtain ⟨o1, ho1, _, hi1, r1, hr1, hbest1⟩ := hb
    have : o1 = o := id_inj hk ho1 ho hi1
    subst this
    rw [hr] at hr1; cases hr1
    have hpt : ∃ q, p.takes a = some q ∧ rp = (if p.const then 1 else 0) :: q := by
      cases hq : p.takes a with
      | none => simp [ranks, hq] at hrp
      | some q => cases hpc : p.const <;> simp [ranks, object, hpc, hq] at hrp <;> exact ⟨q, rfl, by simp [hrp]⟩
    obtain ⟨q, hq, rfl⟩ := hpt
    have hle : ∀ k (h : k < q.length) (h' : k < r.length), q[k] ≤ r[k] := by
      intro k h h'
      have := hf.1 (k + 1) (by simpa using h) (by simpa using h')
      simpa using this
    cases hpc : p.const with
    | false =>
      obtain ⟨k, h, h', hk'⟩ := hlt p hp hpc q hq
      have := hle k h' h
      omega
    | true =>
      rw [hpc] at hf
      have hf := fits_cons.mp hf
      have hf1 := hbest1 p hp trivial (by rw [hi]; exact fun h' => he h'.symm) q hq
      have hf1' := better_iff.mpr hf1
      have := better_asymm hk.asymm hf1'
      rw [hi, better_iff.mpr hf] at this
      cases this

/-! ## State -/

/-- The calls among `as` that are made by a function of the object of type `t`. -/
def own (tie : Nat → Nat → Bool) (fs : List (Callee A)) (owner : Nat → Nat) (t : Nat) (as : List A) : List (Nat × A) :=
  as.filterMap fun a => match resolve tie false fs a with
    | .calls i => if owner i = t then some (i, a) else none
    | _ => none

/-- **C152, state.** Each function object keeps a state of its own: after any calls on one `overload` it has seen exactly the calls that its
functions were chosen for, in order, and each call gives the result that this function gives in that state. -/
theorem C152_state {tie : Nat → Nat → Bool} {fs : List (Callee A)} {owner : Nat → Nat} {run : Nat → A → σ → σ × R} (as : List A) :
    ∀ {st st' : Nat → σ} {rs : List R}, calls tie fs owner run as st = some (st', rs) →
      (∀ t, st' t = (own tie fs owner t as).foldl (fun x ia => (run ia.1 ia.2 x).1) (st t)) ∧ rs.length = as.length ∧
      ∀ n a, as[n]? = some a → ∃ i, resolve tie false fs a = .calls i ∧
        rs[n]? = some (run i a ((own tie fs owner (owner i) (as.take n)).foldl (fun x ia => (run ia.1 ia.2 x).1) (st (owner i)))).2 := by
  induction as with
  | nil => intro st st' rs h; simp [calls] at h; obtain ⟨rfl, rfl⟩ := h; simp [own]
  | cons a as ih =>
    intro st st' rs h
    simp only [calls, call] at h
    cases hc : resolve tie false fs a with
    | noMatch => simp [hc] at h
    | ambiguous => simp [hc] at h
    | calls i =>
      simp only [hc, Option.bind_eq_bind, Option.bind_some] at h
      generalize hst : (fun t => if t = owner i then (run i a (st (owner i))).1 else st t) = st1 at h
      cases hr : calls tie fs owner run as st1 with
      | none => simp [hr] at h
      | some p =>
        obtain ⟨st2, rs2⟩ := p
        simp [hr] at h
        obtain ⟨rfl, rfl⟩ := h
        obtain ⟨h1, h2, h3⟩ := ih hr
        have hown : ∀ t bs, (own tie fs owner t (a :: bs)).foldl (fun x ia => (run ia.1 ia.2 x).1) (st t) =
            (own tie fs owner t bs).foldl (fun x ia => (run ia.1 ia.2 x).1) (st1 t) := by
          intro t bs
          subst hst
          by_cases ht : owner i = t
          · subst ht; simp [own, hc]
          · have ht' : ¬ t = owner i := fun h => ht h.symm
            simp [own, hc, ht, ht']
        refine ⟨fun t => by rw [hown]; exact h1 t, by simp [h2], fun n b hn => ?_⟩
        cases n with
        | zero => simp at hn; subst hn; exact ⟨i, hc, by simp [own]⟩
        | succ n =>
          obtain ⟨j, hj, hrj⟩ := h3 n b (by simpa using hn)
          refine ⟨j, hj, ?_⟩
          rw [List.take_succ_cons, hown]
          simpa using hrj

/-! ## Variants -/

/-- **C152, visiting.** `std::visit` of a variant with `overload{fs...}` compiles exactly if there is a call for every alternative, all with the
same return type; then it makes the call that is made for the alternative that is held. -/
theorem C152_visit {tie : Nat → Nat → Bool} {fs : List (Callee A)} {ret : Nat → Nat} {alts : List A} {held : Nat} (hh : held < alts.length)
    (i : Nat) : visit tie fs ret alts held = some i ↔
      (∀ a ∈ alts, ∃ j, resolve tie false fs a = .calls j) ∧
      (∀ a ∈ alts, ∀ b ∈ alts, ∀ j k, resolve tie false fs a = .calls j → resolve tie false fs b = .calls k → ret j = ret k) ∧
      resolve tie false fs alts[held] = .calls i := by
  have hm : ∀ (as : List A) ids, (as.mapM fun a => called (resolve tie false fs a)) = some ids ↔
      as.map (resolve tie false fs) = ids.map Result.calls := by
    intro as
    induction as with
    | nil => intro ids; cases ids <;> simp
    | cons a as ih =>
      intro ids
      cases hr : resolve tie false fs a with
      | calls i =>
        cases ids with
        | nil => simp [List.mapM_cons, hr, called, Option.bind_eq_some_iff]
        | cons j ids =>
          rw [List.mapM_cons, hr, List.map_cons, List.map_cons, hr, List.cons.injEq, Result.calls.injEq, ← ih ids]
          generalize (as.mapM fun a => called (resolve tie false fs a)) = m
          cases m <;> simp [called]
      | noMatch => cases ids <;> simp [List.mapM_cons, hr, called]
      | ambiguous => cases ids <;> simp [List.mapM_cons, hr, called]
  unfold visit
  constructor
  · intro h
    simp only [Option.bind_eq_bind, Option.bind_eq_some_iff] at h
    obtain ⟨ids, hids, h⟩ := h
    rw [hm] at hids
    split at h
    · rename_i hret
      have hlen : alts.length = ids.length := by simpa using congrArg List.length hids
      have hget : ∀ n (hn : n < alts.length), resolve tie false fs alts[n] = .calls (ids[n]'(hlen ▸ hn)) := by
        intro n hn
        have := congrArg (·[n]?) hids
        simpa [List.getElem?_eq_getElem hn, List.getElem?_eq_getElem (hlen ▸ hn)] using this
      refine ⟨fun a ha => ?_, fun a ha b hb j k hj hk => ?_, ?_⟩
      · obtain ⟨n, hn, rfl⟩ := List.mem_iff_getElem.mp ha
        exact ⟨_, hget n hn⟩
      · obtain ⟨n, hn, rfl⟩ := List.mem_iff_getElem.mp ha
        obtain ⟨m, hm', rfl⟩ := List.mem_iff_getElem.mp hb
        rw [hget n hn] at hj; cases hj
        rw [hget m hm'] at hk; cases hk
        simp only [List.all_eq_true, beq_iff_eq] at hret
        exact hret _ (List.getElem_mem _) _ (List.getElem_mem _)
      · obtain ⟨hl, rfl⟩ := List.getElem?_eq_some_iff.mp h
        exact hget held hh
    · simp at h
  · rintro ⟨h1, h2, h3⟩
    have : ∃ ids : List Nat, alts.map (resolve tie false fs) = ids.map Result.calls := by
      clear h2 h3 hh
      induction alts with
      | nil => exact ⟨[], rfl⟩
      | cons a as ih =>
        obtain ⟨ids, hids⟩ := ih fun b hb => h1 b (by simp [hb])
        obtain ⟨j, hj⟩ := h1 a (by simp)
        exact ⟨j :: ids, by simp [hj, hids]⟩
    obtain ⟨ids, hids⟩ := this
    have hlen : alts.length = ids.length := by simpa using congrArg List.length hids
    have hget : ∀ n (hn : n < alts.length), resolve tie false fs alts[n] = .calls (ids[n]'(hlen ▸ hn)) := by
      intro n hn
      have := congrArg (·[n]?) hids
      simpa [List.getElem?_eq_getElem hn, List.getElem?_eq_getElem (hlen ▸ hn)] using this
    rw [(hm alts ids).mpr hids]
    have hret : (ids.all fun i => ids.all fun j => ret i == ret j) = true := by
      simp only [List.all_eq_true, beq_iff_eq]
      intro x hx y hy
      obtain ⟨n, hn, rfl⟩ := List.mem_iff_getElem.mp hx
      obtain ⟨m, hm', rfl⟩ := List.mem_iff_getElem.mp hy
      exact h2 _ (List.getElem_mem (hlen ▸ hn)) _ (List.getElem_mem (hlen ▸ hm')) _ _ (hget n (hlen ▸ hn)) (hget m (hlen ▸ hm'))
    simp only [Option.bind_eq_bind, Option.bind_some, hret, if_true]
    rw [List.getElem?_eq_getElem (hlen ▸ hh)]
    rw [hget held hh] at h3
    cases h3
    rfl

/-- **C152, what is accepted.** `overload{fs...}` compiles exactly for function objects of different classes, none of them final, and not for
pointers to functions. -/
theorem C152_declared (fs : List (Callee A)) : declared fs = true ↔
    (∀ f ∈ fs, f.kind ≠ .final ∧ f.kind ≠ .pointer ∧ ∃ o, o ∈ f.ops) ∧ fs.Pairwise fun f g => f.type ≠ g.type := by
  simp only [declared, Bool.and_eq_true, List.all_eq_true, decide_eq_true_eq, List.Nodup, List.pairwise_map]
  refine and_congr ?_ Iff.rfl
  refine forall₂_congr fun f _ => ?_
  have : (!f.ops.isEmpty) = true ↔ ∃ o, o ∈ f.ops := by cases f.ops <;> simp
  rw [this]
  cases f.kind <;> simp

/-! ## Examples -/

/-- The arguments of the examples: a value of one of three types. -/
inductive Arg
  | int
  | char
  | string
  deriving DecidableEq

/-- `[](int) { ... }`: characters are promoted. -/
def takesInt : Arg → Option (List Nat)
  | .int => some [0]
  | .char => some [1]
  | .string => none

/-- `[](char) { ... }`: integers are converted. -/
def takesChar : Arg → Option (List Nat)
  | .int => some [2]
  | .char => some [0]
  | .string => none

/-- `[](auto) { ... }` -/
def takesAll : Arg → Option (List Nat) := fun _ => some [0]

/-- `[](std::string const &) { ... }` -/
def takesString : Arg → Option (List Nat)
  | .string => some [0]
  | _ => none

/-- `overload{[](int) {...}, [](char) {...}}`, and the same with the second one `mutable`. -/
def numbers (c : Bool) : List (Callee Arg) := [⟨0, .class_, [⟨0, true, takesInt⟩]⟩, ⟨1, .class_, [⟨1, c, takesChar⟩]⟩]

/-- The overload of the documentation: the function with a string comes before the generic one. -/
def documented : List (Callee Arg) := [⟨0, .class_, [⟨0, true, takesString⟩]⟩, ⟨1, .class_, [⟨1, true, takesAll⟩]⟩]

/-- Functions before templates. -/
def nonTemplate (i j : Nat) : Bool := i == 0 && j == 1

example : Ok nonTemplate (functions documented) :=
  ⟨by decide, by simp only [nonTemplate, Bool.and_eq_true, beq_iff_eq]; rintro i j ⟨rfl, rfl⟩; rfl⟩

example : [Arg.int, .char, .string].map (resolve nonTemplate false documented) = [.calls 1, .calls 1, .calls 0] := by decide

example : visit nonTemplate documented (fun _ => 7) [.int, .char, .string] 2 = some 0 := by decide

example : declared documented = true ∧ declared (documented ++ documented) = false := by decide

example : [Arg.int, .char, .string].map (resolve (fun _ _ => false) false (numbers true)) = [.calls 0, .calls 1, .noMatch] := by decide

example : [Arg.int, .char, .string].map (resolve (fun _ _ => false) false (numbers false)) = [.ambiguous, .calls 1, .noMatch] := by decide

example : resolve (fun _ _ => false) true (numbers false) .char = .calls 0 := by decide

example : Ok (fun _ _ => false) (functions (numbers false)) := ⟨by decide, by simp⟩

example : Best (fun _ _ => false) (fun _ => True) (functions (numbers false)) .int 0 := by
  refine ⟨⟨0, true, takesInt⟩, by simp [functions, numbers], trivial, rfl, [0], rfl, fun o' ho' _ he s hs => ?_⟩
  simp [functions, numbers] at ho'
  rcases ho' with rfl | rfl
  · exact absurd rfl he
  · simp [takesChar] at hs
    subst hs
    exact ⟨fun k h h' => by simp at h; subst h; simp, .inl ⟨0, by decide, by decide, by decide⟩⟩

/-- The order, and an `overload` in an `overload`. -/
example (f g h : Callee Arg) : (functions [f, g, h]).Perm (functions [h, f, g]) ∧
    functions [⟨9, .class_, members [f, g]⟩, h] = functions [f, g, h] := by
  rw [← members_eq, ← members_eq]
  refine ⟨members_perm ?_, by simp [functions, members]⟩
  exact (List.perm_append_comm (l₁ := [f, g]) (l₂ := [h]))

/-- Function objects that count their calls. -/
example : (calls (fun _ _ => false) (numbers true) id (fun _ _ n => (n + 1, n)) [.int, .char, .int, .int] (fun _ => 0)).map (·.2) =
    some [0, 0, 1, 2] := by decide

end Verif.OverloadSet
