import Verif.CxMultimap.Spec
import Verif.CxMap.Lemmas
import Verif.CxSet.Lemmas

namespace Verif.CxMultimap

open Verif.Buf
open Verif.CxMap (MRep upd)
open Verif.CxSet (SRep)

variable {κ ν : Type} [DecidableEq κ] [DecidableEq ν]

/-- The buffer of buffers `b` represents the multimap `a`. -/
def MMRep (c : Cfg ν) (b : MM κ ν) (a : Abs κ ν) : Prop :=
  ∃ m : CxMap.Abs κ (Buf ν), MRep c.KeyN b m ∧ a.card = m.card ∧
    (∀ k, m.fn k = none → a.fn k = none) ∧
    (∀ k s, m.fn k = some s → ∃ t, a.fn k = some t ∧ SRep c.ValueN s t)

theorem set_insert {M : Nat} (hM : M < szMod) {s : Buf ν} {t : CxSet.Abs ν} (h : SRep M s t)
    (v : ν) (hp : t.mem v ∨ t.card < M) :
    ∃ s' t' r, CxSet.insert s v = .ok (s', r) ∧ SRep M s' t' ∧ Added t v t' := by
  obtain ⟨s', t', r, e, hpost, hr⟩ := CxSet.step_refines hM h (.insert v) hp
  simp only [CxSet.step] at e
  cases e1 : CxSet.insert s v with
  | ok p =>
    obtain ⟨s1, r1⟩ := p
    simp [e1] at e
    obtain ⟨rfl, rfl⟩ := e
    exact ⟨s1, t', r1, rfl, hr, hpost.1, fun h => (hpost.2.1 h).1, fun h => (hpost.2.2 h).1⟩
  | ub => simp [e1] at e
  | panic => simp [e1] at e

theorem set_erase {M : Nat} (hM : M < szMod) {s : Buf ν} {t : CxSet.Abs ν} (h : SRep M s t)
    (v : ν) :
    ∃ s' t' r, CxSet.erase s v = .ok (s', r) ∧ SRep M s' t' ∧ Removed t v t' ∧
      (t.mem v → r = 1) ∧ (¬ t.mem v → r = 0) := by
  obtain ⟨s', t', r, e, hpost, hr⟩ := CxSet.step_refines hM h (.erase v) trivial
  simp only [CxSet.step] at e
  cases e1 : CxSet.erase s v with
  | ok p =>
    obtain ⟨s1, r1⟩ := p
    simp [e1] at e
    obtain ⟨rfl, rfl⟩ := e
    refine ⟨s1, t', r1, rfl, hr, ⟨hpost.1, fun h => (hpost.2.1 h).1, fun h => (hpost.2.2 h).1⟩,
      fun h => ?_, fun h => ?_⟩
    · simpa using (hpost.2.1 h).2
    · simpa using (hpost.2.2 h).2
  | ub => simp [e1] at e
  | panic => simp [e1] at e

omit [DecidableEq ν] in
theorem srep_size {M : Nat} {s : Buf ν} {t : CxSet.Abs ν} (h : SRep M s t) : s.size = t.card := by
  obtain ⟨l, hr, _, _, hc⟩ := h; rw [hr.size, hc]

theorem srep_card_zero {M : Nat} {s : Buf ν} {t : CxSet.Abs ν} (h : SRep M s t) (hc : t.card = 0)
    (v : ν) : ¬ t.mem v := by
  obtain ⟨l, hr, _, hm, hl⟩ := h
  rw [hm, List.length_eq_zero_iff.mp (hl.symm.trans hc)]; simp

/-- A representation is preserved when one key is given a new, represented set. -/
theorem rep_upd {c : Cfg ν} {b : MM κ ν} {a : Abs κ ν} {m : CxMap.Abs κ (Buf ν)}
    (h1 : ∀ k, m.fn k = none → a.fn k = none)
    (h2 : ∀ k s, m.fn k = some s → ∃ t, a.fn k = some t ∧ SRep c.ValueN s t)
    {k : κ} {s : Buf ν} {t : CxSet.Abs ν} {n : Nat} (hs : SRep c.ValueN s t)
    (hb : MRep c.KeyN b ⟨upd m.fn k (some s), n⟩) :
    MMRep c b ⟨fun x => if x = k then some t else a.fn x, n⟩ := by
  refine ⟨_, hb, rfl, ?_, ?_⟩
  · intro x hx
    simp only [upd] at hx ⊢
    split at hx <;> simp_all
  · intro x s' hx
    simp only [upd] at hx ⊢
    split at hx
    · simp at hx; subst hx; simp_all
    · rename_i hne; simp [hne]; exact h2 x s' hx

/-- A representation is preserved when one key is removed. -/
theorem rep_del {c : Cfg ν} {b : MM κ ν} {a : Abs κ ν} {m : CxMap.Abs κ (Buf ν)}
    (h1 : ∀ k, m.fn k = none → a.fn k = none)
    (h2 : ∀ k s, m.fn k = some s → ∃ t, a.fn k = some t ∧ SRep c.ValueN s t)
    {k : κ} {n : Nat} (hb : MRep c.KeyN b ⟨upd m.fn k none, n⟩) :
    MMRep c b ⟨fun x => if x = k then none else a.fn x, n⟩ := by
  refine ⟨_, hb, rfl, ?_, ?_⟩
  · intro x hx
    simp only [upd] at hx ⊢
    split at hx <;> simp_all
  · intro x s' hx
    simp only [upd] at hx ⊢
    split at hx
    · simp at hx
    · rename_i hne; simp [hne]; exact h2 x s' hx

theorem upd_upd (f : κ → Option ν) (k : κ) (o o' : Option ν) :
    upd (upd f k o) k o' = upd f k o' := by
  funext x; simp only [upd]; split <;> rfl

/-- What `erase(k, v)` does in every case, including the empty value set. -/
theorem erase_rep {c : Cfg ν} (hM : c.ValueN < szMod) {b : MM κ ν} {a : Abs κ ν}
    (h : MMRep c b a) (k : κ) (v : ν) :
    (a.fn k = none → erase b k v = .ok (b, 0)) ∧
    (∀ t, a.fn k = some t → ∃ b' t' r, erase b k v = .ok (b', r) ∧ Removed t v t' ∧
      (t.mem v → r = 1) ∧ (¬ t.mem v → r = 0) ∧
      (t'.card ≠ 0 → MMRep c b' ⟨fun x => if x = k then some t' else a.fn x, a.card⟩) ∧
      (t'.card = 0 → ∃ n, a.card = n + 1 ∧
        MMRep c b' ⟨fun x => if x = k then none else a.fn x, n⟩)) := by
  obtain ⟨m, hm, hc, h1, h2⟩ := h
  constructor
  · intro hk
    have hmk : m.fn k = none := by
      cases e : m.fn k with
      | none => rfl
      | some s => obtain ⟨t, ht, _⟩ := h2 k s e; rw [hk] at ht; simp at ht
    simp [erase, CxMap.contains_rep hm, hmk]
  · intro t hk
    cases e : m.fn k with
    | none => rw [h1 k e] at hk; simp at hk
    | some s =>
      obtain ⟨t2, ht2, hs⟩ := h2 k s e
      rw [hk] at ht2; simp at ht2; subst ht2
      obtain ⟨s', t', r, e1, hs', hrem, hr1, hr0⟩ := set_erase hM hs v
      obtain ⟨b1, e2, _, hb1⟩ := CxMap.assign_rep hm k s' (by simp [e])
      by_cases hz : t'.card = 0
      · have hz' : s'.size = 0 := by rw [srep_size hs']; exact hz
        obtain ⟨b2, n, e3, hn, hb2⟩ := (CxMap.erase_rep hb1 k).2 (by simp [upd])
        simp only [upd_upd] at hb2
        refine ⟨b2, t', r, ?_, hrem, hr1, hr0, fun h => absurd hz h,
          fun _ => ⟨n, by rw [hc]; exact hn, rep_del h1 h2 hb2⟩⟩
        simp [erase, CxMap.contains_rep hm, CxMap.get_rep hm, e, e1, e2, hz', e3]
      · have hz' : s'.size ≠ 0 := by rw [srep_size hs']; exact hz
        refine ⟨b1, t', r, ?_, hrem, hr1, hr0, fun _ => ?_, fun h => absurd h hz⟩
        · simp [erase, CxMap.contains_rep hm, CxMap.get_rep hm, e, e1, e2, hz']
        · rw [hc]; exact rep_upd h1 h2 hs' hb1

theorem step_refines {c : Cfg ν} (hN : c.KeyN < szMod) (hM : c.ValueN < szMod)
    (hpos : 0 < c.ValueN) {b : MM κ ν} {a : Abs κ ν} (h : MMRep c b a) (o : Op κ ν)
    (hp : Pre c a o) (hne : NotEmptySet a o) :
    ∃ b' a' r, step c b o = .ok (b', r) ∧ Post a o a' r ∧ MMRep c b' a' := by
  cases o with
  | erase k v =>
    obtain ⟨e0, e1⟩ := erase_rep hM h k v
    cases hk : a.fn k with
    | none =>
      refine ⟨b, a, .nat 0, by simp [step, e0 hk], ⟨fun _ _ => rfl, fun _ => ⟨hk, rfl, rfl⟩,
        fun s hs => ?_⟩, h⟩
      rw [hk] at hs; simp at hs
    | some t =>
      obtain ⟨b', t', r, e, hrem, hr1, hr0, hnz, hz⟩ := e1 t hk
      have htc : t.card ≠ 0 := hne t hk
      by_cases hmem : t.mem v
      · have hr := hr1 hmem
        have hcard := hrem.2.1 hmem
        by_cases hz1 : t'.card = 0
        · obtain ⟨n, hn, hb'⟩ := hz hz1
          refine ⟨b', _, .nat r, by simp [step, e], ⟨?_, ?_, ?_⟩, hb'⟩
          · intro x hx; simp [hx]
          · intro hk'; rw [hk] at hk'; simp at hk'
          · intro s hs
            rw [hk] at hs; simp at hs; subst hs
            refine ⟨fun hh => absurd hmem hh, fun _ => ⟨by rw [hr], fun _ => ⟨by simp, by simp [hn]⟩,
              fun hh => absurd (by omega) hh⟩⟩
        · refine ⟨b', _, .nat r, by simp [step, e], ⟨?_, ?_, ?_⟩, hnz hz1⟩
          · intro x hx; simp [hx]
          · intro hk'; rw [hk] at hk'; simp at hk'
          · intro s hs
            rw [hk] at hs; simp at hs; subst hs
            refine ⟨fun hh => absurd hmem hh, fun _ => ⟨by rw [hr], fun hh => absurd hh (by omega),
              fun hh => ⟨rfl, t', by simp, hrem⟩⟩⟩
      · have hr := hr0 hmem
        have hcard := hrem.2.2 hmem
        refine ⟨b', _, .nat r, by simp [step, e], ⟨?_, ?_, ?_⟩, hnz (by omega)⟩
        · intro x hx; simp [hx]
        · intro hk'; rw [hk] at hk'; simp at hk'
        · intro s hs
          rw [hk] at hs; simp at hs; subst hs
          refine ⟨fun _ => ⟨⟨t', by simp, fun x => ?_, hcard⟩, rfl, by rw [hr]⟩,
            fun hh => absurd hh hmem⟩
          rw [hrem.1]
          exact ⟨fun h => h.2, fun h => ⟨fun hxv => hmem (hxv ▸ h), h⟩⟩
  | insert k v =>
    obtain ⟨m, hm, hc, h1, h2⟩ := h
    cases e : m.fn k with
    | none =>
      have hak := h1 k e
      have hb : ofList c.ValueN c.d [v] = some ⟨[v] ++ List.replicate (c.ValueN - 1) c.d, 1⟩ := by
        simp [ofList]; omega
      have hs : SRep c.ValueN (⟨[v] ++ List.replicate (c.ValueN - 1) c.d, 1⟩ : Buf ν)
          ⟨fun x => x = v ∨ False, 1⟩ := ⟨[v], Rep.ofList hb, by simp, by simp, rfl⟩
      obtain ⟨b', e2, hb'⟩ := CxMap.insert_rep hN hm k
        (⟨[v] ++ List.replicate (c.ValueN - 1) c.d, 1⟩ : Buf ν) e (by rw [← hc]; exact hp.2 hak)
      refine ⟨b', _, .unit, ?_, ⟨?_, rfl, ⟨fun x => x = v ∨ False, 1⟩, by simp, ?_, ?_⟩,
        rep_upd h1 h2 hs hb'⟩
      · simp only [step, insert]
        rw [CxMap.contains_rep hm]
        simp only [e, Option.isSome_none, Outcome.ok_bind, Bool.false_eq_true, ↓reduceIte]
        rw [hb]
        simp only
        rw [e2]
        rfl
      · intro x hx; simp [hx]
      · intro s hs'; rw [hak] at hs'; simp at hs'
      · intro _; exact ⟨⟨fun x => Iff.rfl, fun h => absurd h id, fun _ => rfl⟩, by simp [hc]⟩
    | some s =>
      obtain ⟨t, ht, hs⟩ := h2 k s e
      obtain ⟨s', t', r, e1, hs', hadd⟩ := set_insert hM hs v (hp.1 t ht)
      obtain ⟨b', e2, _, hb'⟩ := CxMap.assign_rep hm k s' (by simp [e])
      refine ⟨b', _, .unit, ?_, ⟨?_, rfl, t', by simp, ?_, ?_⟩, rep_upd h1 h2 hs' hb'⟩
      · simp [step, insert, CxMap.contains_rep hm, CxMap.get_rep hm, e, e1, e2]
      · intro x hx; simp [hx]
      · intro s2 hs2; rw [ht] at hs2; simp at hs2; subst hs2; exact ⟨hadd, hc.symm⟩
      · intro hn; rw [ht] at hn; simp at hn
  | insertKey k =>
    obtain ⟨m, hm, hc, h1, h2⟩ := h
    cases e : m.fn k with
    | none =>
      have hak := h1 k e
      have hs : SRep c.ValueN (init c.ValueN c.d) CxSet.Abs.empty :=
        ⟨[], Rep.init _ _, by simp, by simp [CxSet.Abs.empty], rfl⟩
      obtain ⟨b', e2, hb'⟩ := CxMap.insert_rep hN hm k (init c.ValueN c.d) e
        (by rw [← hc]; exact hp hak)
      refine ⟨b', _, .unit, ?_, ⟨?_, rfl, ?_, ?_⟩, rep_upd h1 h2 hs hb'⟩
      · simp [step, insertKey, CxMap.contains_rep hm, e, e2]
      · intro x hx; simp [hx]
      · intro h; exact absurd hak h
      · intro _
        exact ⟨by simp [hc], _, by simp; rfl, fun x h => h, rfl⟩
    | some s =>
      obtain ⟨t, ht, hs⟩ := h2 k s e
      refine ⟨b, a, .unit, ?_, ⟨fun _ _ => rfl, rfl, fun _ => ⟨rfl, rfl⟩, fun h => ?_⟩,
        m, hm, hc, h1, h2⟩
      · simp [step, insertKey, CxMap.contains_rep hm, e]
      · rw [ht] at h; simp at h
  | eraseKey k =>
    obtain ⟨m, hm, hc, h1, h2⟩ := h
    obtain ⟨e0, e1⟩ := CxMap.erase_rep hm k
    cases e : m.fn k with
    | none =>
      have hak := h1 k e
      refine ⟨b, a, .nat 0, ?_, ⟨fun _ _ => rfl, hak, fun h => absurd hak h, fun _ => ⟨rfl, rfl⟩⟩,
        m, hm, hc, h1, h2⟩
      simp [step, eraseKey, e0 e]
    | some s =>
      obtain ⟨t, ht, hs⟩ := h2 k s e
      obtain ⟨b', n, e2, hn, hb'⟩ := e1 (by simp [e])
      refine ⟨b', _, .nat 1, by simp [step, eraseKey, e2], ⟨?_, by simp, ?_, ?_⟩,
        rep_del h1 h2 hb'⟩
      · intro x hx; simp [hx]
      · intro _; exact ⟨by simp [hc, hn], rfl⟩
      · intro h; rw [ht] at h; simp at h
  | clear =>
    obtain ⟨m, ⟨l, hr, _⟩, hc, h1, h2⟩ := h
    exact ⟨_, Abs.empty, .unit, rfl, ⟨fun _ => rfl, rfl, rfl⟩, CxMap.Abs.empty,
      ⟨[], hr.clear, by simp, by simp [CxMap.Abs.empty], rfl⟩, rfl, fun _ _ => rfl,
      by simp [CxMap.Abs.empty]⟩
  | containsKey k =>
    obtain ⟨m, hm, hc, h1, h2⟩ := h
    refine ⟨b, a, .bool (m.fn k).isSome, by simp [step, CxMap.contains_rep hm], ⟨rfl, ?_⟩,
      m, hm, hc, h1, h2⟩
    cases e : m.fn k with
    | none => simp [h1 k e]
    | some s => obtain ⟨t, ht, _⟩ := h2 k s e; simp [ht]
  | contains k v =>
    obtain ⟨m, hm, hc, h1, h2⟩ := h
    cases e : m.fn k with
    | none =>
      exact ⟨b, a, .bool false, by simp [step, contains, CxMap.contains_rep hm, e],
        ⟨rfl, false, rfl, by simp [h1 k e]⟩, m, hm, hc, h1, h2⟩
    | some s =>
      obtain ⟨t, ht, hs⟩ := h2 k s e
      obtain ⟨l, hr, hn, hmem, _⟩ := hs
      exact ⟨b, a, .bool (decide (v ∈ l)), by
          simp [step, contains, CxMap.contains_rep hm, CxMap.get_rep hm, e, CxSet.contains_rep hr],
        ⟨rfl, _, rfl, by simp [ht, hmem]⟩, m, hm, hc, h1, h2⟩
  | get k =>
    obtain ⟨m, hm, hc, h1, h2⟩ := h
    cases e : m.fn k with
    | none => exact absurd (h1 k e) hp
    | some s =>
      obtain ⟨t, ht, hs⟩ := h2 k s e
      obtain ⟨l, hr, hn, hmem, hl⟩ := hs
      exact ⟨b, a, .set l, by simp [step, CxMap.get_rep hm, e, hr.elems],
        ⟨rfl, t, l, ht, rfl, hn, fun x => (hmem x).symm, hl.symm⟩, m, hm, hc, h1, h2⟩
  | onSet k o =>
    obtain ⟨m, hm, hc, h1, h2⟩ := h
    obtain ⟨t, ht, hpre⟩ := hp
    cases e : m.fn k with
    | none => rw [h1 k e] at ht; simp at ht
    | some s =>
      obtain ⟨t2, ht2, hs⟩ := h2 k s e
      rw [ht] at ht2; simp at ht2; subst ht2
      obtain ⟨s', t', r, e1, hpost, hs'⟩ := CxSet.step_refines hM hs o hpre
      obtain ⟨b', e2, _, hb'⟩ := CxMap.assign_rep hm k s' (by simp [e])
      refine ⟨b', _, .fromSet r, ?_, ⟨?_, ?_, t, t', r, ht, by simp, hpost, rfl⟩,
        rep_upd h1 h2 hs' hb'⟩
      · simp [step, onSet, CxMap.get_rep hm, e, e1, e2]
      · intro x hx; simp [hx]
      · simp [hc]
  | size =>
    obtain ⟨m, hm, hc, h1, h2⟩ := h
    have hm' := hm
    obtain ⟨l, hr, hn, hmm, hl⟩ := hm'
    exact ⟨b, a, _, rfl, ⟨rfl, by rw [hr.size, hc, hl]⟩, m, hm, hc, h1, h2⟩
  | empty =>
    obtain ⟨m, hm, hc, h1, h2⟩ := h
    have hm' := hm
    obtain ⟨l, hr, hn, hmm, hl⟩ := hm'
    exact ⟨b, a, _, rfl, ⟨rfl, by rw [hr.size, hc, hl]; rfl⟩, m, hm, hc, h1, h2⟩
  | keys =>
    obtain ⟨m, hm, hc, h1, h2⟩ := h
    have hm' := hm
    obtain ⟨l, hr, hn, hmm, hl⟩ := hm'
    refine ⟨b, a, .keys (l.map Prod.fst), by simp [step, hr.elems], ⟨rfl, _, rfl, hn, ?_, ?_⟩,
      m, hm, hc, h1, h2⟩
    · intro k
      have hkm := CxMap.key_mem hmm k
      cases e : m.fn k with
      | none =>
        have := (not_congr hkm).mp (by simp [e])
        simp [h1 k e]
        intro s hs; exact this ⟨s, hs⟩
      | some s =>
        obtain ⟨t, ht, _⟩ := h2 k s e
        simp [ht]
        exact ⟨s, (hmm k s).mp e⟩
    · simp [hc, hl]

theorem run_refines {c : Cfg ν} (hN : c.KeyN < szMod) (hM : c.ValueN < szMod)
    (hpos : 0 < c.ValueN) (ops : List (Op κ ν)) :
    ∀ {b : MM κ ν} {a : Abs κ ν}, MMRep c b a → Admissible c a ops →
      ∃ b' a' rs, run c b ops = .ok (b', rs) ∧ SpecRun a ops a' rs ∧ MMRep c b' a' := by
  induction ops with
  | nil => intro b a h _; exact ⟨b, a, [], rfl, ⟨rfl, rfl⟩, h⟩
  | cons o os ih =>
    intro b a h ha
    obtain ⟨b1, a1, r, e1, hpost, hr1⟩ := step_refines hN hM hpos h o ha.1 ha.2.1
    obtain ⟨b2, a2, rs, e2, hrun, hr2⟩ := ih hr1 (ha.2.2 a1 r hpost)
    exact ⟨b2, a2, r :: rs, by simp [run, e1, e2], ⟨a1, r, rs, hpost, hrun, rfl⟩, hr2⟩

theorem mmrep_init (c : Cfg ν) (d : κ × Buf ν) : MMRep c (init c.KeyN d) Abs.empty :=
  ⟨CxMap.Abs.empty, CxMap.mrep_init c.KeyN d, rfl, fun _ _ => rfl, by simp [CxMap.Abs.empty]⟩

end Verif.CxMultimap
