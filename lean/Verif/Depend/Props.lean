import Verif.Depend.Spec
import Verif.CxMultimap.Lemmas
import Mathlib.Data.Fintype.Card
import Mathlib.Data.Fintype.EquivFin
import Mathlib.Data.Fintype.Sets

/-!
# C158: tasks in the order of their dependencies
-/

namespace Verif.Depend

open Verif.Buf
open Verif.CxMultimap (Cfg MM MMRep Abs)
open Verif.CxMap (MRep)
open Verif.CxSet (SRep)

variable {T : Type} [DecidableEq T]

/-! ## The declarations -/

/-- The multimap has the keys `K`, and `W` are the pairs in it. -/
def Holds (c : Cfg T) (b : MM T T) (K : T → Prop) (W : T → T → Prop) : Prop :=
  ∃ a, MMRep c b a ∧ (∀ t, a.fn t ≠ none ↔ K t) ∧ ∀ t d, (∃ s, a.fn t = some s ∧ s.mem d) ↔ W t d

/-- The keys of a multimap. -/
theorem keys_of {c : Cfg T} {b : MM T T} {a : Abs T T} (h : MMRep c b a) :
    ∃ l : List T, l.Nodup ∧ (∀ t, t ∈ l ↔ a.fn t ≠ none) ∧ l.length = a.card := by
  obtain ⟨m, ⟨l, _, hn, hm, hc⟩, h1, h2, h3⟩ := h
  refine ⟨l.map Prod.fst, hn, fun t => ?_, by rw [List.length_map, h1, hc]⟩
  rw [List.mem_map]
  constructor
  · rintro ⟨⟨k, s⟩, hin, rfl⟩
    obtain ⟨t, ht, _⟩ := h3 k s ((hm k s).mpr hin)
    simp [ht]
  · intro ht
    cases e : m.fn t with
    | none => exact absurd (h2 t e) ht
    | some s => exact ⟨(t, s), (hm t s).mp e, rfl⟩

/-- The values of a key. -/
theorem vals_of {c : Cfg T} {b : MM T T} {a : Abs T T} (h : MMRep c b a) {t : T} {s : CxSet.Abs T} (hs : a.fn t = some s) :
    ∃ l : List T, l.Nodup ∧ (∀ d, d ∈ l ↔ s.mem d) ∧ l.length = s.card := by
  obtain ⟨m, _, _, h2, h3⟩ := h
  cases e : m.fn t with
  | none => rw [h2 t e] at hs; cases hs
  | some x =>
    obtain ⟨s', hs', l, _, hn, hm, hc⟩ := h3 t x e
    rw [hs] at hs'
    injection hs' with hs'
    subst hs'
    exact ⟨l, hn, fun d => (hm d).symm, hc.symm⟩

theorem insertKey_ok {c : Cfg T} (hK : c.KeyN < szMod) (hV : c.ValueN < szMod) (hp : 0 < c.ValueN) {ks : List (Cmd T)} (hf : Fits c ks) {b : MM T T}
    {K : T → Prop} {W : T → T → Prop} (h : Holds c b K W) (hk : ∀ t, K t → Task ks t) {t : T} (ht : Task ks t) :
    ∃ b', CxMultimap.insertKey c b t = .ok b' ∧ Holds c b' (fun x => x = t ∨ K x) W := by
  obtain ⟨a, hr, h1, h2⟩ := h
  have hpre : CxMultimap.Pre c a (.insertKey t) := by
    intro hnone
    obtain ⟨l, hn, hm, hl⟩ := keys_of hr
    have := hf.tasks (t :: l) (List.nodup_cons.mpr ⟨fun hin => (hm t).mp hin hnone, hn⟩) (by
      intro x hx
      rcases List.mem_cons.mp hx with rfl | hx
      · exact ht
      · exact hk x ((h1 x).mp ((hm x).mp hx)))
    simp only [List.length_cons] at this
    omega
  obtain ⟨b', a', r, e, hpost, hr'⟩ := CxMultimap.step_refines hK hV hp hr (.insertKey t) hpre trivial
  simp only [CxMultimap.step] at e
  obtain ⟨b1, e1, e2⟩ := Outcome.bind_eq_ok.mp e
  simp only [pure, Outcome.ok.injEq, Prod.mk.injEq] at e2
  obtain ⟨rfl, _⟩ := e2
  refine ⟨b1, e1, a', hr', fun x => ?_, fun x d => ?_⟩
  · obtain ⟨hsame, _, hsome, hnone⟩ := hpost
    by_cases hx : x = t
    · subst hx
      simp only [true_or, iff_true]
      by_cases hax : a.fn x = none
      · obtain ⟨_, s', hs', _⟩ := hnone hax
        rw [hs']; simp
      · rw [(hsome hax).1]; exact hax
    · rw [hsame x hx, h1 x]; simp [hx]
  · obtain ⟨hsame, _, hsome, hnone⟩ := hpost
    rw [← h2 x d]
    by_cases hx : x = t
    · subst hx
      by_cases hax : a.fn x = none
      · obtain ⟨_, s', hs', hm, _⟩ := hnone hax
        rw [hs', hax]
        simp [hm]
      · rw [(hsome hax).1]
    · rw [hsame x hx]

theorem insert_ok {c : Cfg T} (hK : c.KeyN < szMod) (hV : c.ValueN < szMod) (hp : 0 < c.ValueN) {ks : List (Cmd T)} (hf : Fits c ks) {b : MM T T}
    {K : T → Prop} {W : T → T → Prop} (h : Holds c b K W) (hk : ∀ t, K t → Task ks t) (hw : ∀ t d, W t d → Waits ks t d) {t v : T}
    (ht : Waits ks t v) :
    ∃ b', CxMultimap.insert c b t v = .ok b' ∧ Holds c b' (fun x => x = t ∨ K x) (fun x d => x = t ∧ d = v ∨ W x d) := by
  obtain ⟨a, hr, h1, h2⟩ := h
  have hpre : CxMultimap.Pre c a (.insert t v) := by
    refine ⟨fun s hs => ?_, fun hnone => ?_⟩
    · by_cases hv : s.mem v
      · exact .inl hv
      · right
        obtain ⟨l, hn, hm, hl⟩ := vals_of hr hs
        have := hf.deps t (v :: l) (List.nodup_cons.mpr ⟨fun hin => hv ((hm v).mp hin), hn⟩) (by
          intro x hx
          rcases List.mem_cons.mp hx with rfl | hx
          · exact ht
          · exact hw t x ((h2 t x).mp ⟨s, hs, (hm x).mp hx⟩))
        simp only [List.length_cons] at this
        omega
    · obtain ⟨l, hn, hm, hl⟩ := keys_of hr
      have := hf.tasks (t :: l) (List.nodup_cons.mpr ⟨fun hin => (hm t).mp hin hnone, hn⟩) (by
        intro x hx
        rcases List.mem_cons.mp hx with rfl | hx
        · exact .inr (.inl ⟨v, ht⟩)
        · exact hk x ((h1 x).mp ((hm x).mp hx)))
      simp only [List.length_cons] at this
      omega
  obtain ⟨b', a', r, e, hpost, hr'⟩ := CxMultimap.step_refines hK hV hp hr (.insert t v) hpre trivial
  simp only [CxMultimap.step] at e
  obtain ⟨b1, e1, e2⟩ := Outcome.bind_eq_ok.mp e
  simp only [pure, Outcome.ok.injEq, Prod.mk.injEq] at e2
  obtain ⟨rfl, _⟩ := e2
  obtain ⟨hsame, _, s', hs', hsome, hnone⟩ := hpost
  refine ⟨b1, e1, a', hr', fun x => ?_, fun x d => ?_⟩
  · by_cases hx : x = t
    · subst hx; rw [hs']; simp
    · rw [hsame x hx, h1 x]; simp [hx]
  · by_cases hx : x = t
    · subst hx
      show _ ↔ x = x ∧ d = v ∨ W x d
      rw [hs', ← h2 x d]
      cases hax : a.fn x with
      | none =>
        have := (hnone hax).1.1 d
        simp only [Option.some.injEq, exists_eq_left', this, true_and]
        simp [CxSet.Abs.empty]
      | some s =>
        have := (hsome s hax).1.1 d
        simp only [Option.some.injEq, exists_eq_left', this, true_and]
    · rw [hsame x hx, h2 x d]; simp [hx]

theorem build_ok {c : Cfg T} (hK : c.KeyN < szMod) (hV : c.ValueN < szMod) (hp : 0 < c.ValueN) {ks : List (Cmd T)} (hf : Fits c ks) :
    ∀ (post pre : List (Cmd T)), pre ++ post = ks → ∀ {b : MM T T}, Holds c b (Task pre) (Waits pre) →
      ∃ b', build c b post = .ok b' ∧ Holds c b' (Task ks) (Waits ks) := by
  intro post
  induction post with
  | nil => intro pre he b h; rw [List.append_nil] at he; subst he; exact ⟨b, rfl, h⟩
  | cons k post ih =>
    intro pre he b h
    have hsub : ∀ x, x ∈ pre → x ∈ ks := fun x hx => by rw [← he]; simp [hx]
    have hk : ∀ t, Task pre t → Task ks t := fun t ht => ht.imp (hsub _) (fun h => h.imp (fun ⟨d, h⟩ => ⟨d, hsub _ h⟩) fun ⟨d, h⟩ => ⟨d, hsub _ h⟩)
    have hw : ∀ t d, Waits pre t d → Waits ks t d := fun t d h => hsub _ h
    have hin : k ∈ ks := by rw [← he]; simp
    cases k with
    | task t =>
      obtain ⟨b1, e1, h1⟩ := insertKey_ok hK hV hp hf h hk (t := t) (.inl hin)
      obtain ⟨b2, e2, h2⟩ := ih (pre ++ [.task t]) (by simpa using he) (b := b1) (by
        obtain ⟨a, ha, h3, h4⟩ := h1
        refine ⟨a, ha, fun x => (h3 x).trans ?_, fun x d => (h4 x d).trans ?_⟩
        · simp only [Task, List.mem_append, List.mem_singleton, Cmd.task.injEq, reduceCtorEq, or_false]
          grind
        · simp [Waits])
      exact ⟨b2, by simp [build, declare, e1, e2], h2⟩
    | dep t d =>
      obtain ⟨b1, e1, h1⟩ := insert_ok hK hV hp hf h hk hw (t := t) (v := d) hin
      obtain ⟨b2, e2, h2⟩ := insertKey_ok hK hV hp hf h1 (by
        rintro x (rfl | hx)
        · exact .inr (.inl ⟨d, hin⟩)
        · exact hk x hx) (t := d) (.inr (.inr ⟨t, hin⟩))
      obtain ⟨b3, e3, h3⟩ := ih (pre ++ [.dep t d]) (by simpa using he) (b := b2) (by
        obtain ⟨a, ha, h3, h4⟩ := h2
        refine ⟨a, ha, fun x => (h3 x).trans ?_, fun x y => (h4 x y).trans ?_⟩
        · simp only [Task, List.mem_append, List.mem_singleton, Cmd.dep.injEq, reduceCtorEq, or_false]
          constructor
          · rintro (rfl | rfl | h | ⟨y, h⟩ | ⟨y, h⟩)
            · exact .inr (.inr ⟨t, .inr ⟨rfl, rfl⟩⟩)
            · exact .inr (.inl ⟨d, .inr ⟨rfl, rfl⟩⟩)
            · exact .inl h
            · exact .inr (.inl ⟨y, .inl h⟩)
            · exact .inr (.inr ⟨y, .inl h⟩)
          · rintro (h | ⟨y, h | ⟨rfl, rfl⟩⟩ | ⟨y, h | ⟨rfl, rfl⟩⟩)
            · exact .inr (.inr (.inl h))
            · exact .inr (.inr (.inr (.inl ⟨y, h⟩)))
            · exact .inr (.inl rfl)
            · exact .inr (.inr (.inr (.inr ⟨y, h⟩)))
            · exact .inl rfl
        · simp only [Waits, List.mem_append, List.mem_singleton, Cmd.dep.injEq]
          exact or_comm)
      exact ⟨b3, by simp [build, declare, e1, e2, e3], h3⟩

/-! ## The loop -/

/-- The entries `l` of the multimap, whose sets are those of `W`. -/
structure Entries (c : Cfg T) (b : MM T T) (l : List (T × Buf T)) (W : T → T → Prop) : Prop where
  rep : Rep c.KeyN b l
  nodup : (l.map Prod.fst).Nodup
  sets : ∀ e ∈ l, ∃ s, Rep c.ValueN e.2 s ∧ s.Nodup ∧ ∀ d, d ∈ s ↔ W e.1 d

theorem Holds.entries {c : Cfg T} {b : MM T T} {K : T → Prop} {W : T → T → Prop} (h : Holds c b K W) :
    ∃ l, Entries c b l W ∧ ∀ t, t ∈ l.map Prod.fst ↔ K t := by
  obtain ⟨a, hr, h1, h2⟩ := h
  have hr' := hr
  obtain ⟨m, ⟨l, hl, hn, hm, _⟩, _, h3, h4⟩ := hr
  refine ⟨l, ⟨hl, hn, fun e he => ?_⟩, fun t => ?_⟩
  · obtain ⟨t, ht, s, hs1, hs2, hs3, _⟩ := h4 e.1 e.2 ((hm e.1 e.2).mpr he)
    refine ⟨s, hs1, hs2, fun d => ?_⟩
    rw [← h2 e.1 d, ← hs3]
    simp [ht]
  · rw [← h1, List.mem_map]
    constructor
    · rintro ⟨e, he, rfl⟩
      obtain ⟨t, ht, _⟩ := h4 e.1 e.2 ((hm e.1 e.2).mpr he)
      simp [ht]
    · intro ht
      cases e : m.fn t with
      | none => exact absurd (h3 t e) ht
      | some s => exact ⟨(t, s), (hm t s).mp e, rfl⟩

theorem release_ok {c : Cfg T} (t : T) {W : T → T → Prop} : ∀ (suf pre : List (T × Buf T)) {b : MM T T}, Rep c.KeyN b (pre ++ suf) →
    (∀ e ∈ suf, ∃ s, Rep c.ValueN e.2 s ∧ s.Nodup ∧ ∀ d, d ∈ s ↔ W e.1 d) →
    ∃ b' suf', release t b pre.length suf.length = .ok b' ∧ Rep c.KeyN b' (pre ++ suf') ∧ suf'.map Prod.fst = suf.map Prod.fst ∧
      ∀ e ∈ suf', ∃ s, Rep c.ValueN e.2 s ∧ s.Nodup ∧ ∀ d, d ∈ s ↔ d ≠ t ∧ W e.1 d := by
  intro suf
  induction suf with
  | nil => intro pre b h _; exact ⟨b, [], rfl, h, rfl, by simp⟩
  | cons e suf ih =>
    intro pre b h hs
    obtain ⟨s, hs1, hs2, hs3⟩ := hs e (by simp)
    obtain ⟨s', l', e1, h1, h2, h3, _⟩ := CxSet.erase_rep hs1 hs2 t
    have hi : pre.length < (pre ++ e :: suf).length := by simp
    have hg := h.get hi
    obtain ⟨hset, hrep⟩ := h.set hi (e.1, s')
    have hl : (pre ++ e :: suf).set pre.length (e.1, s') = (pre ++ [(e.1, s')]) ++ suf := by simp
    rw [hl] at hrep
    obtain ⟨b', suf', e2, h4, h5, h6⟩ := ih (pre ++ [(e.1, s')]) hrep (fun x hx => hs x (by simp [hx]))
    refine ⟨b', (e.1, s') :: suf', ?_, by simpa using h4, by simp [h5], ?_⟩
    · have hg' : arrGet b.storage pre.length = .ok e := by simpa using hg
      simp only [List.length_cons, release, hg', Outcome.ok_bind, e1, hset]
      simpa using e2
    · intro x hx
      rcases List.mem_cons.mp hx with rfl | hx
      · exact ⟨l', h1, h2, fun d => by rw [h3, hs3]⟩
      · exact h6 x hx

/-- What `ready` finds. -/
theorem ready_ok {c : Cfg T} {b : MM T T} {l : List (T × Buf T)} {W : T → T → Prop} (h : Entries c b l W) :
    (ready b = .ok none ∧ ∀ t ∈ l.map Prod.fst, ∃ d, W t d) ∨ ∃ t ∈ l.map Prod.fst, ready b = .ok (some t) ∧ ∀ d, ¬ W t d := by
  unfold ready
  rw [h.rep.find]
  cases hf : l.findIdx? (fun e => e.2.size == 0) with
  | none =>
    left
    refine ⟨rfl, fun t ht => ?_⟩
    obtain ⟨e, he, rfl⟩ := List.mem_map.mp ht
    obtain ⟨s, hs1, _, hs3⟩ := h.sets e he
    have := List.findIdx?_eq_none_iff.mp hf e he
    simp only [beq_eq_false_iff_ne] at this
    rw [hs1.size] at this
    obtain ⟨d, hd⟩ := List.exists_mem_of_length_pos (Nat.pos_of_ne_zero this)
    exact ⟨d, (hs3 d).mp hd⟩
  | some i =>
    right
    obtain ⟨hi, hp, _⟩ := List.findIdx?_eq_some_iff_getElem.mp hf
    obtain ⟨s, hs1, _, hs3⟩ := h.sets l[i] (List.getElem_mem hi)
    refine ⟨l[i].1, List.mem_map.mpr ⟨l[i], List.getElem_mem hi, rfl⟩, by simp [h.rep.get hi], fun d hd => ?_⟩
    simp only [beq_iff_eq] at hp
    rw [hs1.size] at hp
    have := (hs3 d).mpr hd
    rw [List.length_eq_zero_iff.mp hp] at this
    cases this

/-- Erasing a key. -/
theorem eraseKey_ok {c : Cfg T} {b : MM T T} {l : List (T × Buf T)} {W : T → T → Prop} (h : Entries c b l W) {t : T} (ht : t ∈ l.map Prod.fst) :
    ∃ b' l', CxMultimap.eraseKey b t = .ok (b', 1) ∧ Entries c b' l' W ∧ (∀ x, x ∈ l'.map Prod.fst ↔ x ≠ t ∧ x ∈ l.map Prod.fst) ∧
      l'.length + 1 = l.length := by
  have hne : l ≠ [] := by rintro rfl; simp at ht
  obtain ⟨e, he, rfl⟩ := List.mem_map.mp ht
  have hs : (l.findIdx? (fun x => x.1 == e.1)).isSome := by
    rw [List.findIdx?_isSome, List.any_eq_true]
    exact ⟨e, he, by simp⟩
  obtain ⟨i, hi⟩ := Option.isSome_iff_exists.mp hs
  obtain ⟨b', e1, hb⟩ := h.rep.eraseIf_some hi hne
  obtain ⟨hil, hp, _⟩ := List.findIdx?_eq_some_iff_getElem.mp hi
  have hk : l[i].1 = e.1 := by simpa using hp
  have hperm := Rep.swapErase_perm hne hil
  have hmap := hperm.map Prod.fst
  rw [List.map_cons, hk] at hmap
  have hnd := hmap.nodup_iff.mpr h.nodup
  rw [List.nodup_cons] at hnd
  refine ⟨b', _, e1, ⟨hb, hnd.2, fun x hx => h.sets x (hperm.mem_iff.mp (List.mem_cons_of_mem _ hx))⟩, fun x => ?_, ?_⟩
  · rw [← hmap.mem_iff, List.mem_cons]
    constructor
    · intro hx
      exact ⟨fun hxe => hnd.1 (hxe ▸ hx), .inr hx⟩
    · rintro ⟨h1, h2 | h2⟩
      · exact absurd h2 h1
      · exact h2
  · have := hperm.length_eq
    simpa using this

/-- What is so at every turn of the loop: `P` was put out. -/
structure Inv (c : Cfg T) (ks : List (Cmd T)) (b : MM T T) (out : Buf T) (P : List T) : Prop where
  entries : ∃ l, Entries c b l (fun t d => d ∉ P ∧ Waits ks t d) ∧ ∀ t, t ∈ l.map Prod.fst ↔ Task ks t ∧ t ∉ P
  out : Rep c.KeyN out P
  nodup : P.Nodup
  task : ∀ t ∈ P, Task ks t
  after : ∀ pre t post, P = pre ++ t :: post → ∀ d, Waits ks t d → d ∈ pre

/-- What the loop gives, when the tasks `P` were put out before. -/
def Result (c : Cfg T) (ks : List (Cmd T)) : Option (Buf T) → Prop
  | some out => ∃ r, Rep c.KeyN out r ∧ Ordered ks r
  | none => ∃ R : List T, R ≠ [] ∧ ∀ t ∈ R, ∃ d ∈ R, Waits ks t d

theorem loop_ok {c : Cfg T} (hK : c.KeyN < szMod) {ks : List (Cmd T)} (hf : Fits c ks) : ∀ (fuel : Nat) {b : MM T T} {out : Buf T} {P : List T},
    Inv c ks b out P → c.KeyN < fuel + P.length → ∃ r, loop fuel b out = .ok r ∧ Result c ks r := by
  intro fuel
  induction fuel with
  | zero =>
    intro b out P h hlt
    have := h.out.le
    omega
  | succ fuel ih =>
    intro b out P h hlt
    obtain ⟨l, hl, hm⟩ := h.entries
    by_cases hz : b.size = 0
    · refine ⟨some out, by simp [loop, hz], P, h.out, h.nodup, fun t => ⟨h.task t, fun ht => ?_⟩, h.after⟩
      by_contra hP
      have := (hm t).mpr ⟨ht, hP⟩
      rw [hl.rep.size] at hz
      rw [List.length_eq_zero_iff.mp hz] at this
      cases this
    · have hlz : l ≠ [] := by rintro rfl; exact hz hl.rep.size
      rcases ready_ok hl with ⟨e, hr⟩ | ⟨t, ht, e, hr⟩
      · refine ⟨none, by simp [loop, hz, e], l.map Prod.fst, by simpa using hlz, fun t ht => ?_⟩
        obtain ⟨d, hd, hw⟩ := hr t ht
        exact ⟨d, (hm d).mpr ⟨.inr (.inr ⟨t, hw⟩), hd⟩, hw⟩
      · obtain ⟨htask, htP⟩ := (hm t).mp ht
        have hlen := hf.tasks (t :: P) (List.nodup_cons.mpr ⟨htP, h.nodup⟩) (by
          intro x hx
          rcases List.mem_cons.mp hx with rfl | hx
          · exact htask
          · exact h.task x hx)
        simp only [List.length_cons] at hlen
        obtain ⟨out', e1, ho⟩ := h.out.append hK (by omega) t
        obtain ⟨b1, l1, e2, hl1, hm1, _⟩ := eraseKey_ok hl ht
        obtain ⟨b2, l2, e3, hl2, hk2, hs2⟩ := release_ok (W := fun t d => d ∉ P ∧ Waits ks t d) t l1 [] (by simpa using hl1.rep) hl1.sets
        have hinv : Inv c ks b2 out' (P ++ [t]) := by
          refine ⟨⟨l2, ⟨by simpa using hl2, by rw [hk2]; exact hl1.nodup, fun x hx => ?_⟩, fun x => ?_⟩, ho, ?_, ?_, ?_⟩
          · obtain ⟨s, hs, hsn, hsm⟩ := hs2 x hx
            refine ⟨s, hs, hsn, fun d => ?_⟩
            rw [hsm d]
            simp only [List.mem_append, List.mem_singleton, not_or]
            tauto
          · rw [hk2, hm1, hm]
            simp only [List.mem_append, List.mem_singleton, not_or]
            tauto
          · rw [List.nodup_append]
            exact ⟨h.nodup, by simp, fun x hx y hy hxy => htP (by rw [List.mem_singleton] at hy; rw [← hy, ← hxy]; exact hx)⟩
          · intro x hx
            rcases List.mem_append.mp hx with hx | hx
            · exact h.task x hx
            · rw [List.mem_singleton] at hx; subst hx; exact htask
          · intro pre x post hsplit d hd
            rcases List.eq_nil_or_concat post with rfl | ⟨post', y, rfl⟩
            · obtain ⟨h3, h4⟩ := List.append_inj' hsplit rfl
              simp only [List.cons.injEq, and_true] at h4
              subst h3 h4
              by_contra hnot
              exact hr d ⟨hnot, hd⟩
            · rw [List.concat_eq_append, ← List.cons_append, ← List.append_assoc] at hsplit
              obtain ⟨h3, _⟩ := List.append_inj' hsplit rfl
              exact h.after pre x post' h3 d hd
        obtain ⟨r, e4, hres⟩ := ih hinv (by simp; omega)
        refine ⟨r, ?_, hres⟩
        have hb1 : b1.size = l1.length := hl1.rep.size
        have e3' : release t b1 0 b1.size = .ok b2 := by rw [hb1]; simpa using e3
        simp [loop, hz, e, e1, e2, e3', e4]

/-! ## Cycles -/

/-- Where every task waits for another of them there is a cycle. -/
theorem cyclic_of_closed {ks : List (Cmd T)} {R : List T} (hne : R ≠ []) (h : ∀ t ∈ R, ∃ d ∈ R, Waits ks t d) : Cyclic ks := by
  by_contra hc
  let r : {x // x ∈ R} → {x // x ∈ R} → Prop := fun a b => Relation.TransGen (Waits ks) b.1 a.1
  have htr : IsTrans _ r := ⟨fun a b c hab hbc => hbc.trans hab⟩
  have hir : Std.Irrefl r := ⟨fun a ha => hc ⟨a.1, ha⟩⟩
  have hfin : Finite {x // x ∈ R} := @Finite.of_fintype _ (List.Subtype.fintype R)
  have hwf := Finite.wellFounded_of_trans_of_irrefl r
  obtain ⟨t0, ht0⟩ := List.exists_mem_of_ne_nil R hne
  refine hwf.induction (C := fun _ => False) ⟨t0, ht0⟩ fun m ih => ?_
  obtain ⟨d, hd, hw⟩ := h m.1 m.2
  exact ih ⟨d, hd⟩ (.single hw)

/-- There is no order with a cycle. -/
theorem not_cyclic_of_ordered {ks : List (Cmd T)} {r : List T} (h : Ordered ks r) : ¬ Cyclic ks := by
  have hlt : ∀ t d, Waits ks t d → r.idxOf d < r.idxOf t := by
    intro t d hw
    have ht : t ∈ r := (h.mem t).mpr (.inr (.inl ⟨d, hw⟩))
    obtain ⟨pre, post, hsplit⟩ := List.append_of_mem ht
    have hd := h.after pre t post hsplit d hw
    have hnd := h.nodup
    rw [hsplit] at hnd
    have htp : t ∉ pre := by
      intro hin
      exact (List.nodup_append.mp hnd).2.2 t hin t (by simp) rfl
    rw [hsplit, List.idxOf_append_of_mem hd, List.idxOf_append_of_notMem htp]
    have := List.idxOf_lt_length_iff.mpr hd
    omega
  have htr : ∀ t d, Relation.TransGen (Waits ks) t d → r.idxOf d < r.idxOf t := by
    intro t d hw
    induction hw with
    | single h => exact hlt _ _ h
    | tail _ h ih => exact Nat.lt_trans (hlt _ _ h) ih
  rintro ⟨t, ht⟩
  exact Nat.lt_irrefl _ (htr t t ht)

theorem holds_init (c : Cfg T) (d : T × Buf T) : Holds c (init c.KeyN d) (Task []) (Waits []) := by
  refine ⟨Abs.empty, CxMultimap.mmrep_init c d, fun t => ?_, fun t d => ?_⟩
  · simp [Abs.empty, Task]
  · simp [Abs.empty, Waits]

/-! ## `erase(k, v)` in the loop -/

theorem releaseKeys_ok {c : Cfg T} (hV : c.ValueN < szMod) (t : T) : ∀ (ks : List T) {b : MM T T} {a : Abs T T}, MMRep c b a →
    ∃ b' a', releaseKeys t b ks = .ok b' ∧ MMRep c b' a' ∧ (∀ k, a.fn k = none → a'.fn k = none) ∧
      ∀ k s, a'.fn k = some s → (k ∈ ks → s.card ≠ 0) ∧ (k ∉ ks → a.fn k = some s) := by
  intro ks
  induction ks with
  | nil => intro b a h; exact ⟨b, a, rfl, h, fun _ h => h, fun k s hs => ⟨by simp, fun _ => hs⟩⟩
  | cons x ks ih =>
    intro b a h
    obtain ⟨h0, h1⟩ := CxMultimap.erase_rep hV h x t
    obtain ⟨b1, r, a1, e1, hr1, hn1, hx, ho⟩ : ∃ b1 r a1, CxMultimap.erase b x t = .ok (b1, r) ∧ MMRep c b1 a1 ∧
        (∀ k, a.fn k = none → a1.fn k = none) ∧ (∀ s, a1.fn x = some s → s.card ≠ 0) ∧ ∀ k, k ≠ x → a1.fn k = a.fn k := by
      cases hax : a.fn x with
      | none => exact ⟨b, 0, a, h0 hax, h, fun _ h => h, by simp [hax], fun _ _ => rfl⟩
      | some u =>
        obtain ⟨b1, u', r, e1, _, _, _, h2, h3⟩ := h1 u hax
        by_cases hz : u'.card = 0
        · obtain ⟨n, _, hr⟩ := h3 hz
          refine ⟨b1, r, _, e1, hr, fun k hk => ?_, by simp, fun k hk => by simp [hk]⟩
          by_cases hkx : k = x <;> simp [hkx, hk]
        · refine ⟨b1, r, _, e1, h2 hz, fun k hk => ?_, by simp [hz], fun k hk => by simp [hk]⟩
          by_cases hkx : k = x
          · subst hkx; rw [hax] at hk; cases hk
          · simp [hkx, hk]
    obtain ⟨b2, a2, e2, hr2, hn2, h2⟩ := ih hr1
    refine ⟨b2, a2, by simp [releaseKeys, e1, e2], hr2, fun k hk => hn2 k (hn1 k hk), fun k s hs => ⟨fun hk => ?_, fun hk => ?_⟩⟩
    · by_cases hin : k ∈ ks
      · exact (h2 k s hs).1 hin
      · rcases List.mem_cons.mp hk with rfl | hk
        · exact hx s ((h2 k s hs).2 hin)
        · exact absurd hk hin
    · simp only [List.mem_cons, not_or] at hk
      rw [← ho k hk.1]
      exact (h2 k s hs).2 hk.2

/-- Any multimap as entries. -/
theorem entries_of {c : Cfg T} {b : MM T T} {a : Abs T T} (h : MMRep c b a) :
    ∃ l, Entries c b l (fun t d => ∃ s, a.fn t = some s ∧ s.mem d) ∧ ∀ t, t ∈ l.map Prod.fst ↔ a.fn t ≠ none :=
  Holds.entries ⟨a, h, fun _ => Iff.rfl, fun _ _ => Iff.rfl⟩

/-! ## Theorems -/

/-- **C158.** Whatever tasks and dependencies are declared, as long as there is room for them: if there is no cycle the result has every task once, each after those
it waits for; if there is one there is no result. Nothing is undefined and the loop ends. -/
theorem C158_order {c : Cfg T} (hK : c.KeyN < szMod) (hV : c.ValueN < szMod) (hp : 0 < c.ValueN) {ks : List (Cmd T)} (hf : Fits c ks) (d : T × Buf T)
    {fuel : Nat} (hfuel : c.KeyN < fuel) :
    (Cyclic ks ∧ order c d fuel ks = .ok none) ∨ (¬ Cyclic ks ∧ ∃ r, order c d fuel ks = .ok (some r) ∧ Ordered ks r) := by
  obtain ⟨b, e1, h1⟩ := build_ok hK hV hp hf ks [] rfl (holds_init c d)
  obtain ⟨l, hl, hm⟩ := h1.entries
  have hinv : Inv c ks b (init c.KeyN c.d) [] := by
    refine ⟨⟨l, ?_, ?_⟩, Rep.init _ _, by simp, by simp, by simp⟩
    · exact ⟨hl.rep, hl.nodup, fun e he => by simpa using hl.sets e he⟩
    · intro t; rw [hm]; simp
  obtain ⟨r, e2, hr⟩ := loop_ok hK hf fuel hinv (by simpa using hfuel)
  cases r with
  | none =>
    obtain ⟨R, hne, hR⟩ := hr
    exact .inl ⟨cyclic_of_closed hne hR, by simp [order, e1, e2, listed]⟩
  | some out =>
    obtain ⟨r, ho, hord⟩ := hr
    exact .inr ⟨not_cyclic_of_ordered hord, r, by simp [order, e1, e2, listed, ho.elems], hord⟩

/-- The room that is asked for is needed only as far as the tasks go: with `KeyN` for the number of tasks and for `ValueN` the same, everything fits. -/
theorem C158_fits {c : Cfg T} {ks : List (Cmd T)} (ts : List T) (hts : ∀ t, Task ks t → t ∈ ts) (hK : ts.length ≤ c.KeyN) (hV : ts.length ≤ c.ValueN) :
    Fits c ks := by
  have hle : ∀ l : List T, l.Nodup → (∀ t ∈ l, t ∈ ts) → l.length ≤ ts.length := fun l hn hl => (hn.subperm hl).length_le
  refine ⟨fun l hn hl => Nat.le_trans (hle l hn fun t ht => hts t (hl t ht)) hK,
    fun t l hn hl => Nat.le_trans (hle l hn fun d hd => hts d (.inr (.inr ⟨t, hl d hd⟩))) hV⟩

/-- With `deps.erase(k, t)` in place of `e.value.erase(t)` the program is wrong for every input of two tasks or more: `erase(k, v)` drops keys without values, so that
tasks are lost as soon as they could be put out. The result has one task at most. -/
theorem C158_erase_fails {c : Cfg T} (hK : c.KeyN < szMod) (hV : c.ValueN < szMod) (hp : 0 < c.ValueN) {ks : List (Cmd T)} (hf : Fits c ks) (d : T × Buf T)
    {fuel : Nat} (hfuel : c.KeyN < fuel) {t u : T} (ht : Task ks t) (hu : Task ks u) (htu : t ≠ u) :
    ∃ o, orderErase c d fuel ks = .ok o ∧ ∀ r, o = some r → r.length = 1 ∧ ¬ Ordered ks r := by
  have h2 : 2 ≤ c.KeyN := by
    have := hf.tasks [t, u] (by simp [htu]) (by simp [ht, hu])
    simpa using this
  obtain ⟨fuel, rfl⟩ : ∃ n, fuel = n + 2 := ⟨fuel - 2, by omega⟩
  have hone : ∀ x : T, ¬ Ordered ks [x] := by
    intro x hx
    have h3 := (hx.mem t).mpr ht
    have h4 := (hx.mem u).mpr hu
    simp only [List.mem_singleton] at h3 h4
    exact htu (h3.trans h4.symm)
  obtain ⟨b, e1, a, hr, ha, hw⟩ := build_ok hK hV hp hf ks [] rfl (holds_init c d)
  obtain ⟨l, hl, hm⟩ := entries_of hr
  have hz : ¬ b.size = 0 := by
    intro hz
    have := (hm t).mpr ((ha t).mpr ht)
    rw [hl.rep.size] at hz
    rw [List.length_eq_zero_iff.mp hz] at this
    cases this
  rcases ready_ok hl with ⟨e2, _⟩ | ⟨x, hx, e2, _⟩
  · exact ⟨none, by simp [orderErase, e1, loopErase, hz, e2, listed], by simp⟩
  · obtain ⟨out, e3, ho⟩ := (Rep.init c.KeyN c.d).append hK (by simp; omega) x
    obtain ⟨b1, a1, r1, e0, hpost, hr1⟩ := CxMultimap.step_refines hK hV hp hr (.eraseKey x) trivial trivial
    simp only [CxMultimap.step] at e0
    obtain ⟨⟨b1', n⟩, e4, e5⟩ := Outcome.bind_eq_ok.mp e0
    simp only [pure, Outcome.ok.injEq, Prod.mk.injEq] at e5
    obtain ⟨rfl, _⟩ := e5
    obtain ⟨l1, hl1, hm1⟩ := entries_of hr1
    obtain ⟨b2, a2, e6, hr2, hn2, hc2⟩ := releaseKeys_ok hV x (l1.map Prod.fst) hr1
    obtain ⟨l2, hl2, hm2⟩ := entries_of hr2
    by_cases hz2 : b2.size = 0
    · refine ⟨some [x], ?_, ?_⟩
      · simp [orderErase, e1, loopErase, hz, e2, e3, e4, hl1.rep.elems, e6, hz2, listed, ho.elems]
      · intro r hr
        injection hr with hr
        subst hr
        exact ⟨rfl, hone x⟩
    · rcases ready_ok hl2 with ⟨e7, _⟩ | ⟨y, hy, e7, hno⟩
      · exact ⟨none, by simp [orderErase, e1, loopErase, hz, e2, e3, e4, hl1.rep.elems, e6, hz2, e7, listed], by simp⟩
      · exfalso
        obtain ⟨s, hs⟩ := Option.ne_none_iff_exists'.mp ((hm2 y).mp hy)
        have hy1 : y ∈ l1.map Prod.fst := by
          rw [hm1]
          intro hnone
          rw [hn2 y hnone] at hs
          cases hs
        have hcard := (hc2 y s hs).1 hy1
        obtain ⟨vs, _, hvs, hlen⟩ := vals_of hr2 hs
        obtain ⟨v, hv⟩ := List.exists_mem_of_length_pos (Nat.pos_of_ne_zero (hlen ▸ hcard))
        exact hno v ⟨s, hs, (hvs v).mp hv⟩

/-! ## Instances -/

/-- The board's drivers: 3 waits for 1 and 2, 2 for 1, and 4 for nothing. -/
example : order (T := Nat) ⟨5, 3, 0⟩ (0, init 3 0) 6 [.dep 3 1, .dep 3 2, .dep 2 1, .task 4] = .ok (some [1, 4, 2, 3]) ∧
    orderErase (T := Nat) ⟨5, 3, 0⟩ (0, init 3 0) 6 [.dep 3 1, .dep 3 2, .dep 2 1, .task 4] = .ok none ∧
    orderErase (T := Nat) ⟨5, 3, 0⟩ (0, init 3 0) 6 [.dep 2 1] = .ok (some [1]) ∧
    order (T := Nat) ⟨5, 3, 0⟩ (0, init 3 0) 6 [.dep 1 2, .dep 2 3, .dep 3 1, .task 4] = .ok none := by decide

example : Fits (T := Nat) ⟨5, 4, 0⟩ [.dep 3 1, .dep 3 2, .dep 2 1, .task 4] :=
  C158_fits [1, 2, 3, 4] (by rintro t (h | ⟨d, h⟩ | ⟨d, h⟩) <;> simp at h ⊢ <;> omega) (by decide) (by decide)

end Verif.Depend
