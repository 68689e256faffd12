import Verif.CxMap.Model
import Verif.Buf.Equiv

/-!
# `stdx::cx_map` with keys whose `operator==` is coarser than equality of values  (C121)

Keys may compare equal without being the same value (strings compared ignoring case, records
compared by one field).  The specification is a finite partial function from classes of
equivalent keys to pairs of the *stored* key and its value.
-/

namespace Verif.CxMap

open Verif.Buf

variable {κ ν : Type} [BEq κ]

/-- What is stored under each key: the key that was inserted first and the last value. -/
structure EAbs (κ ν : Type) where
  fn : κ → Option (κ × ν)
  card : Nat

/-- The empty map. -/
def EAbs.empty {κ ν : Type} : EAbs κ ν := ⟨fun _ => none, 0⟩

/-- The key under which `k` is or will be stored. -/
def EAbs.keyFor (m : EAbs κ ν) (k : κ) : κ :=
  match m.fn k with
  | some e => e.1
  | none => k

/-- `m'` stores `o` under all keys equivalent to `k`, and is `m` elsewhere. -/
def Changed (m m' : EAbs κ ν) (k : κ) (o : Option (κ × ν)) : Prop :=
  (∀ x, (x == k) = true → m'.fn x = o) ∧ (∀ x, (x == k) = false → m'.fn x = m.fn x)

/-- Preconditions, as for `Pre`. -/
def EPre (N : Nat) (m : EAbs κ ν) : Op κ ν → Prop
  | .put k _ => m.fn k ≠ none ∨ m.card < N
  | .popBack => m.card ≠ 0
  | .get k => m.fn k ≠ none
  | .assignGet k _ => m.fn k ≠ none
  | _ => True

/-- Effect and returned value: a key equivalent to a stored one replaces the value and leaves the
stored key. -/
def EPost (N : Nat) (m : EAbs κ ν) (o : Op κ ν) (m' : EAbs κ ν) (r : Out κ ν) : Prop :=
  match o with
  | .put k v => Changed m m' k (some (m.keyFor k, v)) ∧
      (m.fn k ≠ none → m'.card = m.card ∧ r = .bool false) ∧
      (m.fn k = none → m'.card = m.card + 1 ∧ r = .bool true)
  | .erase k => Changed m m' k none ∧
      (m.fn k ≠ none → m'.card + 1 = m.card ∧ r = .nat 1) ∧
      (m.fn k = none → m'.card = m.card ∧ r = .nat 0)
  | .popBack => ∃ k v, m.fn k = some (k, v) ∧ Changed m m' k none ∧
      m'.card + 1 = m.card ∧ r = .pair k v
  | .clear => (∀ x, m'.fn x = none) ∧ m'.card = 0 ∧ r = .unit
  | .contains k => m' = m ∧ r = .bool (m.fn k).isSome
  | .get k => m' = m ∧ ∃ k' v, m.fn k = some (k', v) ∧ r = .val v
  | .assignGet k v => Changed m m' k (some (m.keyFor k, v)) ∧ m'.card = m.card ∧ r = .unit
  | .size => m' = m ∧ r = .nat m.card
  | .empty => m' = m ∧ r = .bool (decide (m.card = 0))
  | .full => m' = m ∧ r = .bool (decide (m.card = N))
  | .iterate => m' = m ∧ ∃ l : List (κ × ν), r = .list l ∧
      l.Pairwise (fun a b => (a.1 == b.1) = false) ∧
      (∀ x e, m.fn x = some e ↔ e ∈ l ∧ (e.1 == x) = true) ∧ l.length = m.card

/-- Histories all of whose operations meet their preconditions. -/
def EAdmissible (N : Nat) : EAbs κ ν → List (Op κ ν) → Prop
  | _, [] => True
  | m, o :: os => EPre N m o ∧ ∀ m' r, EPost N m o m' r → EAdmissible N m' os

/-- Possible results of a history. -/
def ESpecRun (N : Nat) : EAbs κ ν → List (Op κ ν) → EAbs κ ν → List (Out κ ν) → Prop
  | m, [], m', rs => m' = m ∧ rs = []
  | m, o :: os, m', rs =>
    ∃ m1 r rs', EPost N m o m1 r ∧ ESpecRun N m1 os m' rs' ∧ rs = r :: rs'

/-- The buffer represents the map. -/
def ERep (N : Nat) (b : Buf (κ × ν)) (m : EAbs κ ν) : Prop :=
  ∃ l, Rep N b l ∧ Uniq Prod.fst l ∧
    (∀ x e, m.fn x = some e ↔ e ∈ l ∧ (e.1 == x) = true) ∧ m.card = l.length

variable [EquivBEq κ]

omit [EquivBEq κ] in
theorem e_none {l : List (κ × ν)} {m : EAbs κ ν}
    (hm : ∀ x e, m.fn x = some e ↔ e ∈ l ∧ (e.1 == x) = true) {k : κ} (h : m.fn k = none) :
    ∀ e ∈ l, (e.1 == k) = false := by
  intro e he
  cases hb : (e.1 == k)
  · rfl
  · have := (hm k e).mpr ⟨he, hb⟩; rw [h] at this; simp at this

theorem e_contains {N : Nat} {b : Buf (κ × ν)} {m : EAbs κ ν} (h : ERep N b m) (k : κ) :
    contains b k = .ok (m.fn k).isSome := by
  obtain ⟨l, hr, hn, hm, hc⟩ := h
  unfold contains
  rw [hr.find]
  cases hk : m.fn k with
  | none => simp [uniq_find_none (key := Prod.fst) (e_none hm hk)]
  | some e =>
    obtain ⟨hl, hke⟩ := (hm k e).mp hk
    obtain ⟨i, hi, e, _⟩ := uniq_find_some (key := Prod.fst) hn hl hke
    simp [e]

theorem e_get {N : Nat} {b : Buf (κ × ν)} {m : EAbs κ ν} (h : ERep N b m) (k : κ) :
    get b k = match m.fn k with | some e => .ok e.2 | none => .ub := by
  obtain ⟨l, hr, hn, hm, hc⟩ := h
  unfold get
  rw [hr.find]
  cases hk : m.fn k with
  | none => simp [uniq_find_none (key := Prod.fst) (e_none hm hk)]
  | some e =>
    obtain ⟨hl, hke⟩ := (hm k e).mp hk
    obtain ⟨i, hi, e1, e2⟩ := uniq_find_some (key := Prod.fst) hn hl hke
    simp [e1, hr.get hi, e2]

/-- Update of a class of keys. -/
def eupd (f : κ → Option (κ × ν)) (k : κ) (o : Option (κ × ν)) : κ → Option (κ × ν) :=
  fun x => if x == k then o else f x

omit [EquivBEq κ] in
theorem changed_eupd (m : EAbs κ ν) (k : κ) (o : Option (κ × ν)) (c : Nat) :
    Changed m ⟨eupd m.fn k o, c⟩ k o :=
  ⟨by intro x hx; simp [eupd, hx], by intro x hx; simp [eupd, hx]⟩

theorem e_assign {N : Nat} {b : Buf (κ × ν)} {m : EAbs κ ν} (h : ERep N b m) (k : κ) (v : ν)
    (hk : m.fn k ≠ none) :
    ∃ b', assignGet b k v = .ok b' ∧ insertOrAssign b k v = .ok (b', false) ∧
      ERep N b' ⟨eupd m.fn k (some (m.keyFor k, v)), m.card⟩ := by
  obtain ⟨l, hr, hn, hm, hc⟩ := h
  obtain ⟨⟨k0, w⟩, he⟩ := Option.ne_none_iff_exists'.mp hk
  obtain ⟨hl, hke⟩ := (hm k _).mp he
  obtain ⟨i, hi, e, hie⟩ := uniq_find_some (key := Prod.fst) hn hl hke
  obtain ⟨e2, hr2⟩ := hr.set hi (k0, v)
  have hg := hr.get hi
  rw [hie] at hg
  have hs := uniq_set (key := Prod.fst) hn hi (e' := (k0, v)) (by simp [hie])
  refine ⟨⟨b.storage.set i (k0, v), b.size⟩, ?_, ?_, _, hr2, hs.1, ?_, ?_⟩
  · simp [assignGet, hr.find, e, hg, e2]
  · simp [insertOrAssign, hr.find, e, hg, e2]
  · have hkf : m.keyFor k = k0 := by simp [EAbs.keyFor, he]
    intro x e'
    rw [hs.2, hie, hkf]
    simp only [eupd]
    split
    · rename_i hx
      have hx0 : (k0 == x) = true := BEq.trans hke (BEq.symm hx)
      constructor
      · intro h; simp at h; subst h; exact ⟨.inl rfl, hx0⟩
      · rintro ⟨rfl | ⟨_, h1⟩, h2⟩
        · rfl
        · have := BEq.trans h2 (BEq.symm hx0); rw [this] at h1; simp at h1
    · rename_i hx
      rw [hm]
      constructor
      · rintro ⟨h1, h2⟩
        refine ⟨.inr ⟨h1, ?_⟩, h2⟩
        cases hb : (e'.1 == k0)
        · simp [hb]
        · exact absurd (BEq.trans (BEq.symm h2) (BEq.trans hb hke)) hx
      · rintro ⟨rfl | ⟨h1, _⟩, h2⟩
        · exact absurd (BEq.trans (BEq.symm h2) hke) hx
        · exact ⟨h1, h2⟩
  · simp [hc]

theorem e_insert {N : Nat} {b : Buf (κ × ν)} {m : EAbs κ ν} (hN : N < szMod) (h : ERep N b m)
    (k : κ) (v : ν) (hk : m.fn k = none) (hr : m.card < N) :
    ∃ b', insertOrAssign b k v = .ok (b', true) ∧
      ERep N b' ⟨eupd m.fn k (some (m.keyFor k, v)), m.card + 1⟩ := by
  obtain ⟨l, hb, hn, hm, hc⟩ := h
  have hno := e_none hm hk
  obtain ⟨b', e, hb'⟩ := hb.append hN (hc ▸ hr) (k, v)
  refine ⟨b', by simp [insertOrAssign, hb.find, uniq_find_none (key := Prod.fst) hno, e], _, hb',
    uniq_append hn hno, ?_, ?_⟩
  · have hkf : m.keyFor k = k := by simp [EAbs.keyFor, hk]
    intro x e'
    rw [hkf]
    simp only [eupd, List.mem_append, List.mem_singleton]
    split
    · rename_i hx
      constructor
      · intro h; simp at h; subst h; exact ⟨.inr rfl, BEq.symm hx⟩
      · rintro ⟨h1 | rfl, h2⟩
        · have h3 := hno _ h1
          rw [BEq.trans h2 hx] at h3; simp at h3
        · rfl
    · rename_i hx
      rw [hm]
      constructor
      · rintro ⟨h1, h2⟩; exact ⟨.inl h1, h2⟩
      · rintro ⟨h1 | rfl, h2⟩
        · exact ⟨h1, h2⟩
        · exact absurd (BEq.symm h2) hx
  · simp [hc]

theorem e_remove {l l' : List (κ × ν)} {m : EAbs κ ν} {e : κ × ν} {k : κ} (hn : Uniq Prod.fst l)
    (hm : ∀ x e, m.fn x = some e ↔ e ∈ l ∧ (e.1 == x) = true) (hp : (e :: l').Perm l)
    (hk : (e.1 == k) = true) : Uniq Prod.fst l' ∧
      ∀ x e', eupd m.fn k none x = some e' ↔ e' ∈ l' ∧ (e'.1 == x) = true := by
  have hu : Uniq Prod.fst (e :: l') := uniq_perm hp.symm hn
  have hu2 := List.pairwise_cons.mp hu
  refine ⟨hu2.2, ?_⟩
  intro x e'
  simp only [eupd]
  split
  · rename_i hx
    constructor
    · intro h; simp at h
    · rintro ⟨h1, h2⟩
      have h3 := hu2.1 e' h1
      rw [BEq.trans hk (BEq.symm (BEq.trans h2 hx))] at h3; simp at h3
  · rename_i hx
    rw [hm, ← hp.mem_iff, List.mem_cons]
    constructor
    · rintro ⟨rfl | h1, h2⟩
      · exact absurd (BEq.trans (BEq.symm h2) hk) hx
      · exact ⟨h1, h2⟩
    · rintro ⟨h1, h2⟩; exact ⟨.inr h1, h2⟩

theorem e_erase {N : Nat} {b : Buf (κ × ν)} {m : EAbs κ ν} (h : ERep N b m) (k : κ) :
    (m.fn k = none → erase b k = .ok (b, 0)) ∧
    (m.fn k ≠ none → ∃ b' n, erase b k = .ok (b', 1) ∧ m.card = n + 1 ∧
      ERep N b' ⟨eupd m.fn k none, n⟩) := by
  obtain ⟨l, hr, hn, hm, hc⟩ := h
  constructor
  · intro hk
    exact hr.eraseIf_none (e_none hm hk)
  · intro hk
    obtain ⟨e, he⟩ := Option.ne_none_iff_exists'.mp hk
    obtain ⟨hl, hke⟩ := (hm k _).mp he
    obtain ⟨i, hi, ei, hie⟩ := uniq_find_some (key := Prod.fst) hn hl hke
    have hne : l ≠ [] := by rintro rfl; simp at hl
    obtain ⟨b', e', hb'⟩ := hr.eraseIf_some ei hne
    have hp := Rep.swapErase_perm hne hi
    rw [hie] at hp
    obtain ⟨h1, h2⟩ := e_remove hn hm hp hke
    exact ⟨b', (Rep.swapErase l i hne).length, e', by rw [hc, ← hp.length_eq]; simp, _, hb', h1,
      h2, rfl⟩

theorem e_popBack {N : Nat} {b : Buf (κ × ν)} {m : EAbs κ ν} (h : ERep N b m)
    (hne : m.card ≠ 0) : ∃ b' n k v, popBack b = .ok (b', (k, v)) ∧ m.card = n + 1 ∧
      m.fn k = some (k, v) ∧ ERep N b' ⟨eupd m.fn k none, n⟩ := by
  obtain ⟨l, hr, hn, hm, hc⟩ := h
  have hne : l ≠ [] := by rintro rfl; exact hne hc
  have hl : l = l.dropLast ++ [l.getLast hne] := (List.dropLast_concat_getLast hne).symm
  generalize l.getLast hne = kv at hl
  generalize l.dropLast = l' at hl
  obtain ⟨k, v⟩ := kv
  subst hl
  obtain ⟨b', e, hb⟩ := hr.popBack
  have hp : ((k, v) :: l').Perm (l' ++ [(k, v)]) := (List.perm_append_singleton _ _).symm
  obtain ⟨h1, h2⟩ := e_remove hn hm hp (k := k) (by simp)
  exact ⟨b', l'.length, k, v, e, by simp [hc], by rw [hm]; simp, l', hb, h1, h2, rfl⟩

theorem e_step {N : Nat} {b : Buf (κ × ν)} {m : EAbs κ ν} (hN : N < szMod)
    (h : ERep N b m) (o : Op κ ν) (hp : EPre N m o) :
    ∃ b' m' r, step N b o = .ok (b', r) ∧ EPost N m o m' r ∧ ERep N b' m' := by
  cases o with
  | put k v =>
    by_cases hk : m.fn k = none
    · obtain ⟨b', e, hb⟩ := e_insert hN h k v hk (by
        rcases hp with hp | hp
        · exact absurd hk hp
        · exact hp)
      exact ⟨b', _, .bool true, by simp [step, e], ⟨changed_eupd _ _ _ _,
        fun h => absurd hk h, fun _ => ⟨rfl, rfl⟩⟩, hb⟩
    · obtain ⟨b', _, e, hb⟩ := e_assign h k v hk
      exact ⟨b', ⟨eupd m.fn k (some (m.keyFor k, v)), m.card⟩, .bool false, by simp [step, e],
        ⟨changed_eupd _ _ _ _, fun _ => ⟨rfl, rfl⟩, fun h => absurd h hk⟩, hb⟩
  | erase k =>
    by_cases hk : m.fn k = none
    · have e := (e_erase h k).1 hk
      refine ⟨b, m, .nat 0, by simp [step, e], ⟨⟨?_, fun _ _ => rfl⟩, fun h => absurd hk h,
        fun _ => ⟨rfl, rfl⟩⟩, h⟩
      intro x hx
      obtain ⟨l, hr, hn, hm, hc⟩ := h
      cases hf : m.fn x with
      | none => rfl
      | some e =>
        obtain ⟨h1, h2⟩ := (hm x e).mp hf
        rw [(hm k e).mpr ⟨h1, BEq.trans h2 hx⟩] at hk; simp at hk
    · obtain ⟨b', n, e, hc, hb⟩ := (e_erase h k).2 hk
      exact ⟨b', _, .nat 1, by simp [step, e], ⟨changed_eupd _ _ _ _,
        fun _ => ⟨hc.symm, rfl⟩, fun h => absurd h hk⟩, hb⟩
  | popBack =>
    obtain ⟨b', n, k, v, e, hc, hk, hb⟩ := e_popBack h hp
    exact ⟨b', _, .pair k v, by simp [step, e], ⟨k, v, hk, changed_eupd _ _ _ _, hc.symm, rfl⟩, hb⟩
  | clear =>
    obtain ⟨l, hr, hn, hm, hc⟩ := h
    exact ⟨_, EAbs.empty, .unit, rfl, ⟨fun _ => rfl, rfl, rfl⟩, [], hr.clear, by simp [Uniq],
      by simp [EAbs.empty], rfl⟩
  | contains k => exact ⟨b, m, _, by simp [step, e_contains h], ⟨rfl, rfl⟩, h⟩
  | get k =>
    obtain ⟨v, hv⟩ := Option.ne_none_iff_exists'.mp hp
    exact ⟨b, m, .val v.2, by simp [step, e_get h, hv], ⟨rfl, v.1, v.2, hv, rfl⟩, h⟩
  | assignGet k v =>
    obtain ⟨b', e, _, hb⟩ := e_assign h k v hp
    exact ⟨b', ⟨eupd m.fn k (some (m.keyFor k, v)), m.card⟩, .unit, by simp [step, e],
      ⟨changed_eupd _ _ _ _, rfl, rfl⟩, hb⟩
  | size =>
    obtain ⟨l, hr, hn, hm, hc⟩ := h
    exact ⟨b, m, _, rfl, ⟨rfl, by rw [hr.size, hc]⟩, l, hr, hn, hm, hc⟩
  | empty =>
    obtain ⟨l, hr, hn, hm, hc⟩ := h
    exact ⟨b, m, _, rfl, ⟨rfl, by rw [hr.size, hc]; rfl⟩, l, hr, hn, hm, hc⟩
  | full =>
    obtain ⟨l, hr, hn, hm, hc⟩ := h
    exact ⟨b, m, _, rfl, ⟨rfl, by rw [hr.size, hc]; rfl⟩, l, hr, hn, hm, hc⟩
  | iterate =>
    obtain ⟨l, hr, hn, hm, hc⟩ := h
    exact ⟨b, m, .list l, by simp [step, hr.elems], ⟨rfl, l, rfl, hn, hm, hc.symm⟩, l, hr, hn,
      hm, hc⟩

theorem e_run {N : Nat} (hN : N < szMod) (ops : List (Op κ ν)) :
    ∀ {b : Buf (κ × ν)} {m : EAbs κ ν}, ERep N b m → EAdmissible N m ops →
      ∃ b' m' rs, run N b ops = .ok (b', rs) ∧ ESpecRun N m ops m' rs ∧ ERep N b' m' := by
  induction ops with
  | nil => intro b m h _; exact ⟨b, m, [], rfl, ⟨rfl, rfl⟩, h⟩
  | cons o os ih =>
    intro b m h ha
    obtain ⟨b1, m1, r, e1, hpost, hr1⟩ := e_step hN h o ha.1
    obtain ⟨b2, m2, rs, e2, hrun, hr2⟩ := ih hr1 (ha.2 m1 r hpost)
    exact ⟨b2, m2, r :: rs, by simp [run, e1, e2], ⟨m1, r, rs, hpost, hrun, rfl⟩, hr2⟩

/-- **C121 (maps).** For every capacity and every key type whose `==` is an equivalence relation,
every admissible history of a `cx_map` behaves as a partial function on the classes of equivalent
keys: any equivalent key finds the pair, assigning by an equivalent key replaces the value and
keeps the key stored first, and iteration shows one stored pair per class. -/
theorem C121_cx_map_equivalent_keys (N : Nat) (d : κ × ν) (hN : N < szMod)
    (ops : List (Op κ ν)) (ha : EAdmissible N EAbs.empty ops) :
    ∃ b' m' rs, run N (init N d) ops = .ok (b', rs) ∧ ESpecRun N EAbs.empty ops m' rs ∧
      b'.size = m'.card ∧ m'.card ≤ N ∧ (∀ k, contains b' k = .ok (m'.fn k).isSome) ∧
      (∀ k v, get b' k = .ok v ↔ ∃ k', m'.fn k = some (k', v)) ∧
      (∀ x y, (x == y) = true → m'.fn x = m'.fn y) ∧
      ∃ l, elems b' = .ok l ∧ l.Pairwise (fun a b => (a.1 == b.1) = false) ∧
        (∀ x e, m'.fn x = some e ↔ e ∈ l ∧ (e.1 == x) = true) ∧ l.length = m'.card := by
  obtain ⟨b', m', rs, e, hs, hb⟩ := e_run hN ops
    (⟨[], Rep.init N d, by simp [Uniq], by simp [EAbs.empty], rfl⟩ : ERep N (init N d) EAbs.empty) ha
  have hcont := e_contains hb
  have hget := e_get hb
  obtain ⟨l, hr, hn, hm, hc⟩ := hb
  refine ⟨b', m', rs, e, hs, by rw [hr.size, hc], by rw [hc]; exact hr.le, hcont, ?_, ?_, l,
    hr.elems, hn, hm, hc.symm⟩
  · intro k v
    rw [hget]
    cases hk : m'.fn k with
    | none => simp
    | some e =>
      simp
      constructor
      · intro h; exact ⟨e.1, by rw [← h]⟩
      · rintro ⟨k', rfl⟩; rfl
  · intro x y hxy
    apply Option.ext
    intro e
    rw [hm, hm]
    constructor
    · rintro ⟨h1, h2⟩; exact ⟨h1, BEq.trans h2 hxy⟩
    · rintro ⟨h1, h2⟩; exact ⟨h1, BEq.trans h2 (BEq.symm hxy)⟩

/-- Keys compared by their remainder modulo three. -/
structure Mod3 where
  n : Nat
  deriving DecidableEq

instance : BEq Mod3 := ⟨fun a b => a.n % 3 == b.n % 3⟩

instance : EquivBEq Mod3 where
  rfl := by intro a; simp [BEq.beq]
  symm := by intro a b h; simp [BEq.beq] at h ⊢; omega
  trans := by intro a b c h1 h2; simp [BEq.beq] at h1 h2 ⊢; omega

example : run 2 (init 2 (⟨0⟩, 0)) ([.put ⟨1⟩ 10, .put ⟨4⟩ 20, .get ⟨7⟩, .put ⟨2⟩ 5, .erase ⟨5⟩,
    .contains ⟨8⟩, .popBack] : List (Op Mod3 Nat)) = .ok (⟨[(⟨1⟩, 20), (⟨2⟩, 5)], 0⟩,
      [.bool true, .bool false, .val 20, .bool true, .nat 1, .bool false, .pair ⟨1⟩ 20]) := by
  rfl

example : EAdmissible 1 EAbs.empty ([.put ⟨1⟩ 10, .put ⟨4⟩ 20, .get ⟨7⟩, .erase ⟨4⟩] :
    List (Op Mod3 Nat)) := by
  refine ⟨.inr (by decide), ?_⟩
  rintro m1 r1 ⟨⟨h1, _⟩, _⟩
  have e1 : m1.fn ⟨4⟩ ≠ none := by rw [h1 _ rfl]; simp
  refine ⟨.inl e1, ?_⟩
  rintro m2 r2 ⟨⟨h2, _⟩, _⟩
  refine ⟨?_, fun _ _ _ => ⟨trivial, fun _ _ _ => trivial⟩⟩
  show m2.fn ⟨7⟩ ≠ none
  rw [h2 _ rfl]; simp

/-! ### Keys that are not equal to themselves -/

omit [EquivBEq κ] in
theorem irreflexive_aux {N : Nat} (hN : N < szMod) (k : κ) (hk : (k == k) = false) (vs : List ν) :
    ∀ {b : Buf (κ × ν)} {us : List ν}, Rep N b (us.map (fun v => (k, v))) →
      us.length + vs.length ≤ N →
      ∃ b', run N b (vs.map (fun v => .put k v)) = .ok (b', vs.map fun _ => .bool true) ∧
        Rep N b' ((us ++ vs).map (fun v => (k, v))) := by
  induction vs with
  | nil => intro b us hr _; exact ⟨b, rfl, by simpa using hr⟩
  | cons v vs ih =>
    intro b us hr hlen
    simp only [List.length_cons] at hlen
    obtain ⟨b1, e1, hr1⟩ := hr.append hN (by simp; omega) (k, v)
    have hno : (us.map (fun v => (k, v))).findIdx? (fun e => e.1 == k) = none :=
      uniq_find_none (key := Prod.fst) (by simp [hk])
    obtain ⟨b2, e2, hr2⟩ := ih (b := b1) (us := us ++ [v]) (by simpa using hr1)
      (by simp; omega)
    exact ⟨b2, by simp [run, step, insertOrAssign, hr.find, hno, e1, e2], by simpa using hr2⟩

omit [EquivBEq κ] in
/-- **C121 (no reflexivity).** A key that is not equal to itself, as a floating-point NaN, is never
found: each `put` of it adds another pair until the map is full, `contains` stays false, `erase`
removes nothing, `get` is undefined, and one more `put` on a full map is undefined. -/
theorem C121_cx_map_irreflexive_key (N : Nat) (d : κ × ν) (hN : N < szMod) (k : κ)
    (hk : (k == k) = false) (vs : List ν) (hv : vs.length ≤ N) :
    ∃ b', run N (init N d) (vs.map (fun v => .put k v)) = .ok (b', vs.map fun _ => .bool true) ∧
      b'.size = vs.length ∧ elems b' = .ok (vs.map fun v => (k, v)) ∧ contains b' k = .ok false ∧
      erase b' k = .ok (b', 0) ∧ get b' k = .ub ∧
      (vs.length = N → ∀ v, insertOrAssign b' k v = .ub) := by
  obtain ⟨b', e, hr⟩ := irreflexive_aux hN k hk vs (us := []) (Rep.init N d) (by simpa using hv)
  simp only [List.nil_append] at hr
  have hno : (vs.map (fun v => (k, v))).findIdx? (fun e => e.1 == k) = none :=
    uniq_find_none (key := Prod.fst) (by simp [hk])
  refine ⟨b', e, by rw [hr.size]; simp, hr.elems, ?_, ?_, ?_, ?_⟩
  · simp [contains, hr.find, hno]
  · exact hr.eraseIf_none (by simp [hk])
  · simp [get, hr.find, hno]
  · intro hl v
    simp [insertOrAssign, hr.find, hno, hr.append_ub (by simpa using hl)]

/-- Keys none of which is equal to itself. -/
structure Nan where
  deriving DecidableEq

instance : BEq Nan := ⟨fun _ _ => false⟩

example : ((⟨⟩ : Nan) == ⟨⟩) = false ∧ ([1, 2] : List Nat).length ≤ 2 := ⟨rfl, by decide⟩

end Verif.CxMap
