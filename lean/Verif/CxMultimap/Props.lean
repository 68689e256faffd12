import Verif.CxMultimap.Lemmas
import Verif.CxMap.Props
import Verif.CxSet.Props

/-!
# Properties of `stdx::cx_multimap`  (C31)
-/

namespace Verif.CxMultimap

open Verif.Buf

variable {κ ν : Type} [DecidableEq κ] [DecidableEq ν]

/-- **C31, partial.** For all capacities and every admissible history, `cx_multimap` has no
undefined behaviour and answers as the abstract map from keys to finite sets does.  Missing
for the full claim: histories that call `erase(k, v)` on a key whose value set is empty, for
which it is false (`C31_cx_multimap_erase_violated`). -/
theorem C31_cx_multimap_refines_partial (c : Cfg ν) (d : κ × Buf ν) (hN : c.KeyN < szMod)
    (hM : c.ValueN < szMod) (hpos : 0 < c.ValueN) (ops : List (Op κ ν))
    (ha : Admissible c Abs.empty ops) :
    ∃ b' a' rs, run c (init c.KeyN d) ops = .ok (b', rs) ∧ SpecRun Abs.empty ops a' rs ∧
      MMRep c b' a' :=
  run_refines hN hM hpos ops (mmrep_init c d) ha

example : Admissible ⟨2, 2, 0⟩ Abs.empty ([.insert 1 10, .insert 1 11, .insertKey 2, .erase 1 10,
    .contains 1 11, .get 2, .onSet 1 .clear] : List (Op Nat Nat)) := by
  simp only [Admissible, Pre, CxSet.Pre, Post, Abs.empty, NotEmptySet, SameElse, Added, Removed,
    CxSet.Abs.empty]
  grind

example : run ⟨2, 2, 0⟩ (init 2 (0, init 2 0)) ([.insert 1 10, .insert 1 11, .erase 1 10,
    .erase 1 11, .containsKey 1, .size] : List (Op Nat Nat)) = .ok
      (⟨[(1, ⟨[11, 11], 0⟩), (0, ⟨[0, 0], 0⟩)], 0⟩,
       [.unit, .unit, .nat 1, .nat 1, .bool false, .nat 0]) := by decide

/-- **C31 (undefined cases).** In every representing state an operation, including any
operation on a value set through the reference returned by `get`, is undefined exactly when its
precondition fails: a new key without room, a new value without room in its set, `get` of a
missing key, or an operation on the value set that is itself undefined. -/
theorem C31_cx_multimap_ub_iff (c : Cfg ν) (hN : c.KeyN < szMod) (hM : c.ValueN < szMod)
    (hpos : 0 < c.ValueN) (b : MM κ ν) (a : Abs κ ν) (h : MMRep c b a) (o : Op κ ν) :
    step c b o = .ub ↔ ¬ Pre c a o := by
  constructor
  · intro hub hp
    by_cases hne : NotEmptySet a o
    · obtain ⟨_, _, _, e, _⟩ := step_refines hN hM hpos h o hp hne
      rw [e] at hub; simp at hub
    · cases o with
      | erase k v =>
        simp only [NotEmptySet, Classical.not_forall] at hne
        obtain ⟨s, hk, _⟩ := hne
        obtain ⟨b', t', r, e, _⟩ := (erase_rep hM h k v).2 s hk
        simp [step, e] at hub
      | _ => exact absurd trivial hne
  · intro hp
    obtain ⟨m, hm, hc, h1, h2⟩ := h
    have put_ub : ∀ (k : κ) (s : Buf ν), m.fn k = none → ¬ m.card < c.KeyN →
        CxMap.insertOrAssign b k s = .ub := by
      intro k s hk hf
      have := (CxMap.C28_cx_map_ub_iff c.KeyN hN b m hm (.put k s)).mpr (by
        simp only [CxMap.Pre]; rintro (h | h)
        · exact h hk
        · exact hf h)
      simp only [CxMap.step] at this
      cases e : CxMap.insertOrAssign b k s with
      | ub => rfl
      | ok p => simp [e] at this
      | panic => simp [e] at this
    cases o with
    | insert k v =>
      cases e : m.fn k with
      | none =>
        have hak := h1 k e
        have hb : ofList c.ValueN c.d [v] = some ⟨[v] ++ List.replicate (c.ValueN - 1) c.d, 1⟩ := by
          simp [ofList]; omega
        have hfull : ¬ m.card < c.KeyN := by
          intro hlt; exact hp ⟨by simp [hak], fun _ => by rw [hc]; exact hlt⟩
        simp only [step, insert]
        rw [CxMap.contains_rep hm]
        simp only [e, Option.isSome_none, Outcome.ok_bind, Bool.false_eq_true, ↓reduceIte]
        rw [hb]
        simp only
        rw [put_ub k _ e hfull]
        rfl
      | some s =>
        obtain ⟨t, ht, hs⟩ := h2 k s e
        have hpre : ¬ CxSet.Pre c.ValueN t (.insert v) := by
          intro hin
          apply hp
          refine ⟨fun s' hs' => ?_, fun hn => ?_⟩
          · rw [ht] at hs'; simp at hs'; subst hs'; exact hin
          · rw [ht] at hn; simp at hn
        have hub := (CxSet.C29_cx_set_ub_iff c.ValueN hM s t hs (.insert v)).mpr hpre
        simp only [CxSet.step] at hub
        cases e2 : CxSet.insert s v with
        | ub => simp [step, insert, CxMap.contains_rep hm, CxMap.get_rep hm, e, e2]
        | ok p => simp [e2] at hub
        | panic => simp [e2] at hub
    | insertKey k =>
      cases e : m.fn k with
      | none =>
        have hfull : ¬ m.card < c.KeyN := by
          intro hlt; exact hp (fun _ => by rw [hc]; exact hlt)
        simp [step, insertKey, CxMap.contains_rep hm, e, put_ub k _ e hfull]
      | some s =>
        obtain ⟨t, ht, hs⟩ := h2 k s e
        exact absurd (fun h => by rw [ht] at h; simp at h) hp
    | get k =>
      have hk : a.fn k = none := Classical.not_not.mp hp
      cases e : m.fn k with
      | none => simp [step, CxMap.get_rep hm, e]
      | some s => obtain ⟨t, ht, _⟩ := h2 k s e; rw [hk] at ht; simp at ht
    | onSet k o =>
      cases e : m.fn k with
      | none => simp [step, onSet, CxMap.get_rep hm, e]
      | some s =>
        obtain ⟨t, ht, hs⟩ := h2 k s e
        have hub := (CxSet.C29_cx_set_ub_iff c.ValueN hM s t hs o).mpr
          (fun h => hp ⟨t, ht, h⟩)
        simp [step, onSet, CxMap.get_rep hm, e, hub]
    | eraseKey k => exact absurd trivial hp
    | erase k v => exact absurd trivial hp
    | clear => exact absurd trivial hp
    | containsKey k => exact absurd trivial hp
    | contains k v => exact absurd trivial hp
    | size => exact absurd trivial hp
    | empty => exact absurd trivial hp
    | keys => exact absurd trivial hp

example : step ⟨1, 1, 0⟩ (⟨[(7, ⟨[5], 1⟩)], 1⟩ : MM Nat Nat) (.insert 7 6) = .ub ∧
    step ⟨1, 1, 0⟩ (⟨[(7, ⟨[5], 1⟩)], 1⟩ : MM Nat Nat) (.onSet 7 .clear) =
      .ok (⟨[(7, ⟨[5], 0⟩)], 1⟩, .fromSet .unit) := by decide

/-- **C31 is violated** by `erase(k, v)` on any key that is present with an empty value set,
in every reachable or representable state: it reports that nothing was removed, yet the key is
gone and the size has dropped by one. -/
theorem C31_cx_multimap_erase_violated (c : Cfg ν) (hM : c.ValueN < szMod) (b : MM κ ν)
    (a : Abs κ ν) (h : MMRep c b a) (k : κ) (v : ν) (s : CxSet.Abs ν) (hk : a.fn k = some s)
    (he : s.card = 0) :
    ∃ b', CxMap.contains b k = .ok true ∧ erase b k v = .ok (b', 0) ∧
      CxMap.contains b' k = .ok false ∧ b'.size + 1 = b.size := by
  obtain ⟨b', t', r, e, hrem, hr1, hr0, hnz, hz⟩ := (erase_rep hM h k v).2 s hk
  obtain ⟨m, hm, hc, h1, h2⟩ := h
  have hmem : ¬ s.mem v := by
    cases em : m.fn k with
    | none => rw [h1 k em] at hk; simp at hk
    | some x =>
      obtain ⟨t, ht, hs⟩ := h2 k x em
      rw [hk] at ht; simp at ht; subst ht
      exact srep_card_zero hs he v
  have hr := hr0 hmem
  subst hr
  obtain ⟨n, hn, m2, hm2, hc2, g1, g2⟩ := hz (by rw [hrem.2.2 hmem]; exact he)
  refine ⟨b', ?_, e, ?_, ?_⟩
  · rw [CxMap.contains_rep hm]
    cases em : m.fn k with
    | none => rw [h1 k em] at hk; simp at hk
    | some x => rfl
  · rw [CxMap.contains_rep hm2]
    cases em : m2.fn k with
    | none => rfl
    | some x => obtain ⟨t, ht, _⟩ := g2 k x em; simp at ht
  · obtain ⟨l, hr, _, _, hl⟩ := hm
    obtain ⟨l2, hr2, _, _, hl2⟩ := hm2
    rw [hr.size, hr2.size, ← hl, ← hl2, ← hc, ← hc2, hn]

/-- A concrete history that shows it: `insert(1); erase(1, 5)` returns 0 and drops the key. -/
theorem C31_cx_multimap_erase_violated_witness :
    run ⟨2, 2, 0⟩ (init 2 (0, init 2 0)) ([.insertKey 1, .containsKey 1, .erase 1 5,
      .containsKey 1] : List (Op Nat Nat)) = .ok
        (⟨[(1, ⟨[0, 0], 0⟩), (0, ⟨[0, 0], 0⟩)], 0⟩, [.unit, .bool true, .nat 0, .bool false]) := by
  decide

/-- What the operations really do: as intended, except that `erase(k, v)` on a key with an
empty value set removes the key and reports 0. -/
def PostActual (m : Abs κ ν) (o : Op κ ν) (m' : Abs κ ν) (r : Out κ ν) : Prop :=
  (NotEmptySet m o ∧ Post m o m' r) ∨
  (∃ k v s, o = .erase k v ∧ m.fn k = some s ∧ s.card = 0 ∧ SameElse m m' k ∧ m'.fn k = none ∧
    m'.card + 1 = m.card ∧ r = .nat 0)

/-- Histories that meet the documented preconditions only. -/
def AdmissibleActual (c : Cfg ν) : Abs κ ν → List (Op κ ν) → Prop
  | _, [] => True
  | m, o :: os => Pre c m o ∧ ∀ m' r, PostActual m o m' r → AdmissibleActual c m' os

/-- Possible results of a history according to `PostActual`. -/
def SpecRunActual : Abs κ ν → List (Op κ ν) → Abs κ ν → List (Out κ ν) → Prop
  | m, [], m', rs => m' = m ∧ rs = []
  | m, o :: os, m', rs =>
    ∃ m1 r rs', PostActual m o m1 r ∧ SpecRunActual m1 os m' rs' ∧ rs = r :: rs'

/-- **C31 (exact behaviour).** Over *all* histories within capacity, including `erase(k, v)`
on empty value sets, the multimap never has undefined behaviour and follows `PostActual`. -/
theorem C31_cx_multimap_exact (c : Cfg ν) (hN : c.KeyN < szMod) (hM : c.ValueN < szMod)
    (hpos : 0 < c.ValueN) (ops : List (Op κ ν)) :
    ∀ (b : MM κ ν) (a : Abs κ ν), MMRep c b a → AdmissibleActual c a ops →
      ∃ b' a' rs, run c b ops = .ok (b', rs) ∧ SpecRunActual a ops a' rs ∧ MMRep c b' a' := by
  induction ops with
  | nil => intro b a h _; exact ⟨b, a, [], rfl, ⟨rfl, rfl⟩, h⟩
  | cons o os ih =>
    intro b a h ha
    have key : ∃ b1 a1 r, step c b o = .ok (b1, r) ∧ PostActual a o a1 r ∧ MMRep c b1 a1 := by
      by_cases hne : NotEmptySet a o
      · obtain ⟨b1, a1, r, e1, hpost, hr1⟩ := step_refines hN hM hpos h o ha.1 hne
        exact ⟨b1, a1, r, e1, .inl ⟨hne, hpost⟩, hr1⟩
      · cases o with
        | erase k v =>
          simp only [NotEmptySet, Classical.not_forall] at hne
          obtain ⟨s, hk, hz⟩ := hne
          have hz : s.card = 0 := Classical.not_not.mp hz
          obtain ⟨b', t', r, e, hrem, hr1, hr0, hnz, hzz⟩ := (erase_rep hM h k v).2 s hk
          have hmem : ¬ s.mem v := by
            obtain ⟨m, hm, hc, h1, h2⟩ := h
            cases em : m.fn k with
            | none => rw [h1 k em] at hk; simp at hk
            | some x =>
              obtain ⟨t, ht, hs⟩ := h2 k x em
              rw [hk] at ht; simp at ht; subst ht
              exact srep_card_zero hs hz v
          have hr := hr0 hmem
          subst hr
          obtain ⟨n, hn, hb'⟩ := hzz (by rw [hrem.2.2 hmem]; exact hz)
          exact ⟨b', _, .nat 0, by simp [step, e], .inr ⟨k, v, s, rfl, hk, hz,
            by intro x hx; simp [hx], by simp, by simp [hn], rfl⟩, hb'⟩
        | _ => exact absurd trivial hne
    obtain ⟨b1, a1, r, e1, hpost, hr1⟩ := key
    obtain ⟨b2, a2, rs, e2, hrun, hr2⟩ := ih b1 a1 hr1 (ha.2 a1 r hpost)
    exact ⟨b2, a2, r :: rs, by simp [run, e1, e2], ⟨a1, r, rs, hpost, hrun, rfl⟩, hr2⟩

example : AdmissibleActual ⟨2, 2, 0⟩ Abs.empty ([.insertKey 1, .erase 1 5, .containsKey 1] :
    List (Op Nat Nat)) ∧ MMRep ⟨2, 2, 0⟩ (init 2 (0, init 2 0)) (Abs.empty : Abs Nat Nat) := by
  refine ⟨?_, mmrep_init ⟨2, 2, 0⟩ _⟩
  simp only [AdmissibleActual, Pre, PostActual, Post, Abs.empty, NotEmptySet, SameElse]
  grind

end Verif.CxMultimap
