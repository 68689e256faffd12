import Verif.CxSet.Model
import Verif.Buf.Equiv

/-!
# `stdx::cx_set` with keys whose `operator==` is coarser than equality of values  (C121)
-/

namespace Verif.CxSet

open Verif.Buf

variable {α : Type} [BEq α]

/-- Which element is stored for each key, and how many are stored. -/
structure EAbs (α : Type) where
  fn : α → Option α
  card : Nat

/-- The empty set. -/
def EAbs.empty {α : Type} : EAbs α := ⟨fun _ => none, 0⟩

/-- `s'` holds `o` for all keys equivalent to `k`, and is `s` elsewhere. -/
def Changed (s s' : EAbs α) (k : α) (o : Option α) : Prop :=
  (∀ x, (x == k) = true → s'.fn x = o) ∧ (∀ x, (x == k) = false → s'.fn x = s.fn x)

/-- No two elements are equivalent. -/
def Inequivalent (l : List α) : Prop := l.Pairwise fun a b => (a == b) = false

/-- Preconditions: room for the new elements, something to pop. -/
def EPre (N : Nat) (s : EAbs α) : Op α → Prop
  | .insert k => s.fn k ≠ none ∨ s.card < N
  | .merge xs => ∀ ys : List α, Inequivalent ys → (∀ y ∈ ys, y ∈ xs ∧ s.fn y = none) →
      s.card + ys.length ≤ N
  | .popBack => s.card ≠ 0
  | _ => True

/-- Effect and returned value: an element equivalent to a stored one is not inserted and does not
replace it; `merge` adds the first of each class of equivalent new elements. -/
def EPost (s : EAbs α) (o : Op α) (s' : EAbs α) (r : Out α) : Prop :=
  match o with
  | .insert k => (s.fn k ≠ none → s' = s ∧ r = .bool false) ∧
      (s.fn k = none → Changed s s' k (some k) ∧ s'.card = s.card + 1 ∧ r = .bool true)
  | .erase k => Changed s s' k none ∧
      (s.fn k ≠ none → s'.card + 1 = s.card ∧ r = .nat 1) ∧
      (s.fn k = none → s'.card = s.card ∧ r = .nat 0)
  | .merge xs => (∀ x, s.fn x ≠ none → s'.fn x = s.fn x) ∧
      (∀ x, s.fn x = none → s'.fn x = xs.find? (fun y => y == x)) ∧ r = .unit ∧
      ∃ ys : List α, Inequivalent ys ∧
        (∀ y, y ∈ ys ↔ s.fn y = none ∧ s'.fn y = some y) ∧ s'.card = s.card + ys.length
  | .popBack => ∃ k, s.fn k = some k ∧ Changed s s' k none ∧ s'.card + 1 = s.card ∧ r = .val k
  | .clear => (∀ x, s'.fn x = none) ∧ s'.card = 0 ∧ r = .unit
  | .contains k => s' = s ∧ r = .bool (s.fn k).isSome
  | .size => s' = s ∧ r = .nat s.card
  | .empty => s' = s ∧ r = .bool (decide (s.card = 0))
  | .iterate => s' = s ∧ ∃ l : List α, r = .list l ∧ Inequivalent l ∧
      (∀ x e, s.fn x = some e ↔ e ∈ l ∧ (e == x) = true) ∧ l.length = s.card

/-- Histories all of whose operations meet their preconditions. -/
def EAdmissible (N : Nat) : EAbs α → List (Op α) → Prop
  | _, [] => True
  | s, o :: os => EPre N s o ∧ ∀ s' r, EPost s o s' r → EAdmissible N s' os

/-- Possible results of a history. -/
def ESpecRun : EAbs α → List (Op α) → EAbs α → List (Out α) → Prop
  | s, [], s', rs => s' = s ∧ rs = []
  | s, o :: os, s', rs =>
    ∃ s1 r rs', EPost s o s1 r ∧ ESpecRun s1 os s' rs' ∧ rs = r :: rs'

/-- The stored elements `l` answer as `fn`. -/
def Stores (l : List α) (fn : α → Option α) : Prop :=
  ∀ x e, fn x = some e ↔ e ∈ l ∧ (e == x) = true

/-- The buffer represents the set. -/
def ERep (N : Nat) (b : Buf α) (s : EAbs α) : Prop :=
  ∃ l, Rep N b l ∧ Uniq id l ∧ Stores l s.fn ∧ s.card = l.length

theorem e_none {l : List α} {fn : α → Option α} (hm : Stores l fn) {k : α} :
    fn k = none ↔ ∀ e ∈ l, (e == k) = false := by
  constructor
  · intro h e he
    cases hb : (e == k)
    · rfl
    · have := (hm k e).mpr ⟨he, hb⟩; rw [h] at this; simp at this
  · intro h
    cases hf : fn k with
    | none => rfl
    | some e =>
      obtain ⟨h1, h2⟩ := (hm k e).mp hf
      rw [h e h1] at h2; simp at h2

variable [EquivBEq α]

theorem e_contains {N : Nat} {b : Buf α} {l : List α} {fn : α → Option α} (hr : Rep N b l)
    (hn : Uniq id l) (hm : Stores l fn) (k : α) : contains b k = .ok (fn k).isSome := by
  unfold contains
  rw [hr.find]
  cases hk : fn k with
  | none =>
    have := (e_none hm).mp hk
    simpa using this
  | some e =>
    obtain ⟨hl, hke⟩ := (hm k e).mp hk
    obtain ⟨i, hi, e, _⟩ := uniq_find_some (key := id) hn hl hke
    simp only [id] at e
    simp [e]

/-- Update of a class of keys. -/
def eupd (f : α → Option α) (k : α) (o : Option α) : α → Option α :=
  fun x => if x == k then o else f x

omit [EquivBEq α] in
theorem changed_eupd (s : EAbs α) (k : α) (o : Option α) (c : Nat) :
    Changed s ⟨eupd s.fn k o, c⟩ k o :=
  ⟨by intro x hx; simp [eupd, hx], by intro x hx; simp [eupd, hx]⟩

theorem e_insert {N : Nat} {b : Buf α} {l : List α} {fn : α → Option α} (hN : N < szMod)
    (hb : Rep N b l) (hn : Uniq id l) (hm : Stores l fn) (k : α) (hk : fn k = none)
    (hr : l.length < N) :
    ∃ b', insert b k = .ok (b', true) ∧ Rep N b' (l ++ [k]) ∧ Uniq id (l ++ [k]) ∧
      Stores (l ++ [k]) (eupd fn k (some k)) := by
  have hno := (e_none hm).mp hk
  obtain ⟨b', e, hb'⟩ := hb.append hN hr k
  refine ⟨b', by simp [insert, e_contains hb hn hm, hk, e], hb', uniq_append hn hno, ?_⟩
  intro x e'
  simp only [eupd, List.mem_append, List.mem_singleton]
  split
  · rename_i hx
    constructor
    · intro h; simp at h; subst h; exact ⟨.inr rfl, BEq.symm hx⟩
    · rintro ⟨h1 | rfl, h2⟩
      · have h3 := hno _ h1
        rw [BEq.trans h2 hx] at h3; simp at h3
      · rfl
  · rename_i hx
    rw [hm]
    constructor
    · rintro ⟨h1, h2⟩; exact ⟨.inl h1, h2⟩
    · rintro ⟨h1 | rfl, h2⟩
      · exact ⟨h1, h2⟩
      · exact absurd (BEq.symm h2) hx

theorem e_remove {l l' : List α} {fn : α → Option α} {e : α} {k : α} (hn : Uniq id l)
    (hm : Stores l fn) (hp : (e :: l').Perm l) (hk : (e == k) = true) :
    Uniq id l' ∧ Stores l' (eupd fn k none) := by
  have hu : Uniq id (e :: l') := uniq_perm hp.symm hn
  have hu2 := List.pairwise_cons.mp hu
  refine ⟨hu2.2, ?_⟩
  intro x e'
  simp only [eupd]
  split
  · rename_i hx
    constructor
    · intro h; simp at h
    · rintro ⟨h1, h2⟩
      have h3 := hu2.1 e' h1
      simp only [id] at h3
      rw [BEq.trans hk (BEq.symm (BEq.trans h2 hx))] at h3; simp at h3
  · rename_i hx
    rw [hm, ← hp.mem_iff, List.mem_cons]
    constructor
    · rintro ⟨rfl | h1, h2⟩
      · exact absurd (BEq.trans (BEq.symm h2) hk) hx
      · exact ⟨h1, h2⟩
    · rintro ⟨h1, h2⟩; exact ⟨.inr h1, h2⟩

/-- What `merge` leaves under each key. -/
def mergeFn (fn : α → Option α) (xs : List α) : α → Option α :=
  fun x => match fn x with
    | some e => some e
    | none => xs.find? (fun y => y == x)

theorem e_merge {N : Nat} (hN : N < szMod) (xs : List α) :
    ∀ {b : Buf α} {l : List α} {fn : α → Option α}, Rep N b l → Uniq id l → Stores l fn →
      (∀ ys : List α, Inequivalent ys → (∀ y ∈ ys, y ∈ xs ∧ fn y = none) →
        l.length + ys.length ≤ N) →
      ∃ b' ys, merge b xs = .ok b' ∧ Rep N b' (l ++ ys) ∧ Uniq id (l ++ ys) ∧
        Stores (l ++ ys) (mergeFn fn xs) := by
  induction xs with
  | nil =>
    intro b l fn hb hn hm _
    refine ⟨b, [], rfl, by simpa using hb, by simpa using hn, ?_⟩
    have : mergeFn fn [] = fn := by funext x; unfold mergeFn; cases fn x <;> rfl
    rw [this]; simpa using hm
  | cons a xs ih =>
    intro b l fn hb hn hm hroom
    cases ha : fn a with
    | some e =>
      obtain ⟨b', ys, h1, h2, h3, h4⟩ := ih hb hn hm (fun ys hy h => hroom ys hy
        (fun y hyy => ⟨List.mem_cons_of_mem _ (h y hyy).1, (h y hyy).2⟩))
      refine ⟨b', ys, by simp [merge, insert, e_contains hb hn hm, ha, h1], h2, h3, ?_⟩
      have : mergeFn fn (a :: xs) = mergeFn fn xs := by
        funext x
        simp only [mergeFn]
        cases hx : fn x with
        | some => rfl
        | none =>
          have : (a == x) = false := by
            cases hax : (a == x)
            · rfl
            · obtain ⟨q1, q2⟩ := (hm a e).mp ha
              have := (hm x e).mpr ⟨q1, BEq.trans q2 hax⟩
              rw [hx] at this; simp at this
          simp [List.find?_cons, this]
      rw [this]; exact h4
    | none =>
      have hlt : l.length < N := by
        have := hroom [a] (by simp [Inequivalent]) (by simp [ha])
        simp at this; omega
      obtain ⟨b1, e1, hb1, hn1, hm1⟩ := e_insert hN hb hn hm a ha hlt
      obtain ⟨b', ys, h1, h2, h3, h4⟩ := ih hb1 hn1 hm1 (by
        intro ys hy h
        have := hroom (a :: ys) (by
          refine List.pairwise_cons.mpr ⟨?_, hy⟩
          intro y hyy
          have := (h y hyy).2
          simp only [eupd] at this
          split at this
          · simp at this
          · rename_i hne
            rw [BEq.comm]
            simpa using hne) (by
          intro y hyy
          rcases List.mem_cons.mp hyy with rfl | hyy
          · exact ⟨by simp, ha⟩
          · refine ⟨List.mem_cons_of_mem _ (h y hyy).1, ?_⟩
            have := (h y hyy).2
            simp only [eupd] at this
            split at this
            · simp at this
            · exact this)
        simp at this ⊢; omega)
      refine ⟨b', a :: ys, by simp [merge, e1, h1], by simpa using h2, by simpa using h3, ?_⟩
      have : mergeFn fn (a :: xs) = mergeFn (eupd fn a (some a)) xs := by
        funext x
        simp only [mergeFn, eupd]
        cases hx : (x == a) with
        | true =>
          have hax := BEq.symm hx
          have : fn x = none := by
            cases hf : fn x with
            | none => rfl
            | some e =>
              obtain ⟨q1, q2⟩ := (hm x e).mp hf
              have := (hm a e).mpr ⟨q1, BEq.trans q2 hx⟩
              rw [ha] at this; simp at this
          simp [this, List.find?_cons, hax]
        | false =>
          have hax : (a == x) = false := by rw [BEq.comm]; exact hx
          simp [List.find?_cons, hax]
      rw [this]; simpa using h4

theorem e_step {N : Nat} {b : Buf α} {s : EAbs α} (hN : N < szMod)
    (h : ERep N b s) (o : Op α) (hp : EPre N s o) :
    ∃ b' s' r, step b o = .ok (b', r) ∧ EPost s o s' r ∧ ERep N b' s' := by
  obtain ⟨l, hr, hn, hm, hc⟩ := h
  cases o with
  | insert k =>
    cases hk : s.fn k with
    | none =>
      obtain ⟨b', e, hb, hn', hm'⟩ := e_insert hN hr hn hm k hk (by
        rcases hp with hp | hp
        · exact absurd hk hp
        · rw [← hc]; exact hp)
      exact ⟨b', ⟨eupd s.fn k (some k), s.card + 1⟩, .bool true, by simp [step, e],
        ⟨fun h => absurd hk h, fun _ => ⟨changed_eupd _ _ _ _, rfl, rfl⟩⟩, _, hb, hn', hm',
        by simp [hc]⟩
    | some e =>
      exact ⟨b, s, .bool false, by simp [step, insert, e_contains hr hn hm, hk],
        ⟨fun _ => ⟨rfl, rfl⟩, fun h => by rw [hk] at h; simp at h⟩, l, hr, hn, hm, hc⟩
  | erase k =>
    cases hk : s.fn k with
    | none =>
      have e : erase b k = .ok (b, 0) := hr.eraseIf_none ((e_none hm).mp hk)
      refine ⟨b, s, .nat 0, by simp [step, e], ⟨⟨?_, fun _ _ => rfl⟩, fun h => absurd hk h,
        fun _ => ⟨rfl, rfl⟩⟩, l, hr, hn, hm, hc⟩
      intro x hx
      cases hf : s.fn x with
      | none => rfl
      | some e =>
        obtain ⟨h1, h2⟩ := (hm x e).mp hf
        rw [(hm k e).mpr ⟨h1, BEq.trans h2 hx⟩] at hk; simp at hk
    | some e =>
      obtain ⟨hl, hke⟩ := (hm k _).mp hk
      obtain ⟨i, hi, ei, hie⟩ := uniq_find_some (key := id) hn hl hke
      have hne : l ≠ [] := by rintro rfl; simp at hl
      obtain ⟨b', e', hb'⟩ := hr.eraseIf_some ei hne
      have hpm := Rep.swapErase_perm hne hi
      rw [hie] at hpm
      obtain ⟨h1, h2⟩ := e_remove hn hm hpm hke
      have e'' : erase b k = .ok (b', 1) := e'
      refine ⟨b', ⟨eupd s.fn k none, (Rep.swapErase l i hne).length⟩, .nat 1,
        by simp [step, e''], ⟨changed_eupd _ _ _ _, fun _ => ⟨?_, rfl⟩,
          fun h => by rw [hk] at h; simp at h⟩, _, hb', h1, h2, rfl⟩
      rw [hc, ← hpm.length_eq]; simp
  | merge xs =>
    obtain ⟨b', ys, e, hb, hn', hm'⟩ := e_merge hN xs hr hn hm (fun ys hy h => by
      rw [← hc]; exact hp ys hy h)
    refine ⟨b', ⟨mergeFn s.fn xs, (l ++ ys).length⟩, .unit, by simp [step, e],
      ⟨?_, ?_, rfl, ys, ?_, ?_, by simp [hc]⟩, _, hb, hn', hm', rfl⟩
    · intro x hx
      obtain ⟨e, he⟩ := Option.ne_none_iff_exists'.mp hx
      simp [mergeFn, he]
    · intro x hx; simp [mergeFn, hx]
    · exact (List.pairwise_append.mp hn').2.1
    · intro y
      have hcross := (List.pairwise_append.mp hn').2.2
      constructor
      · intro hy
        refine ⟨(e_none hm).mpr fun e he => hcross e he y hy, ?_⟩
        exact (hm' y y).mpr ⟨by simp [hy], by simp⟩
      · rintro ⟨h1, h2⟩
        obtain ⟨h3, _⟩ := (hm' y y).mp h2
        rcases List.mem_append.mp h3 with h3 | h3
        · have := (e_none hm).mp h1 y h3; simp at this
        · exact h3
  | popBack =>
    have hne : l ≠ [] := by rintro rfl; exact hp hc
    have hl : l = l.dropLast ++ [l.getLast hne] := (List.dropLast_concat_getLast hne).symm
    generalize l.getLast hne = k at hl
    generalize l.dropLast = l' at hl
    subst hl
    obtain ⟨b', e, hb⟩ := hr.popBack
    have hpm : (k :: l').Perm (l' ++ [k]) := (List.perm_append_singleton _ _).symm
    obtain ⟨h1, h2⟩ := e_remove hn hm hpm (k := k) (by simp)
    exact ⟨b', ⟨eupd s.fn k none, l'.length⟩, .val k, by simp [step, e],
      ⟨k, by rw [hm]; simp, changed_eupd _ _ _ _, by simp [hc], rfl⟩, l', hb, h1, h2, rfl⟩
  | clear =>
    exact ⟨_, EAbs.empty, .unit, rfl, ⟨fun _ => rfl, rfl, rfl⟩, [], hr.clear, by simp [Uniq],
      by simp [EAbs.empty, Stores], rfl⟩
  | contains k =>
    exact ⟨b, s, _, by simp [step, e_contains hr hn hm], ⟨rfl, rfl⟩, l, hr, hn, hm, hc⟩
  | size => exact ⟨b, s, _, rfl, ⟨rfl, by rw [hr.size, hc]⟩, l, hr, hn, hm, hc⟩
  | empty => exact ⟨b, s, _, rfl, ⟨rfl, by rw [hr.size, hc]; rfl⟩, l, hr, hn, hm, hc⟩
  | iterate =>
    exact ⟨b, s, .list l, by simp [step, hr.elems], ⟨rfl, l, rfl, hn, hm, hc.symm⟩, l, hr, hn,
      hm, hc⟩

theorem e_run {N : Nat} (hN : N < szMod) (ops : List (Op α)) :
    ∀ {b : Buf α} {s : EAbs α}, ERep N b s → EAdmissible N s ops →
      ∃ b' s' rs, run b ops = .ok (b', rs) ∧ ESpecRun s ops s' rs ∧ ERep N b' s' := by
  induction ops with
  | nil => intro b s h _; exact ⟨b, s, [], rfl, ⟨rfl, rfl⟩, h⟩
  | cons o os ih =>
    intro b s h ha
    obtain ⟨b1, s1, r, e1, hpost, hr1⟩ := e_step hN h o ha.1
    obtain ⟨b2, s2, rs, e2, hrun, hr2⟩ := ih hr1 (ha.2 s1 r hpost)
    exact ⟨b2, s2, r :: rs, by simp [run, e1, e2], ⟨s1, r, rs, hpost, hrun, rfl⟩, hr2⟩

/-- **C121 (sets).** For every capacity and every key type whose `==` is an equivalence relation,
every admissible history of a `cx_set` behaves as a set of classes of equivalent keys, each with
the element inserted first as its stored element. -/
theorem C121_cx_set_equivalent_keys (N : Nat) (d : α) (hN : N < szMod)
    (ops : List (Op α)) (ha : EAdmissible N EAbs.empty ops) :
    ∃ b' s' rs, run (init N d) ops = .ok (b', rs) ∧ ESpecRun EAbs.empty ops s' rs ∧
      b'.size = s'.card ∧ s'.card ≤ N ∧ (∀ k, contains b' k = .ok (s'.fn k).isSome) ∧
      (∀ x y, (x == y) = true → s'.fn x = s'.fn y) ∧
      ∃ l, elems b' = .ok l ∧ Inequivalent l ∧
        (∀ x e, s'.fn x = some e ↔ e ∈ l ∧ (e == x) = true) ∧ l.length = s'.card := by
  obtain ⟨b', s', rs, e, hs, hb⟩ := e_run hN ops
    (⟨[], Rep.init N d, by simp [Uniq], by simp [EAbs.empty, Stores], rfl⟩ :
      ERep N (init N d) EAbs.empty) ha
  obtain ⟨l, hr, hn, hm, hc⟩ := hb
  refine ⟨b', s', rs, e, hs, by rw [hr.size, hc], by rw [hc]; exact hr.le,
    e_contains hr hn hm, ?_, l, hr.elems, hn, hm, hc.symm⟩
  intro x y hxy
  apply Option.ext
  intro e
  rw [hm, hm]
  constructor
  · rintro ⟨h1, h2⟩; exact ⟨h1, BEq.trans h2 hxy⟩
  · rintro ⟨h1, h2⟩; exact ⟨h1, BEq.trans h2 (BEq.symm hxy)⟩

/-- Keys compared by their remainder modulo three. -/
structure Mod3 where
  n : Nat
  deriving DecidableEq

instance : BEq Mod3 := ⟨fun a b => a.n % 3 == b.n % 3⟩

instance : EquivBEq Mod3 where
  rfl := by intro a; simp [BEq.beq]
  symm := by intro a b h; simp [BEq.beq] at h ⊢; omega
  trans := by intro a b c h1 h2; simp [BEq.beq] at h1 h2 ⊢; omega

example : run (init 3 ⟨0⟩) ([.insert ⟨1⟩, .insert ⟨4⟩, .merge [⟨7⟩, ⟨2⟩, ⟨5⟩], .contains ⟨8⟩,
    .erase ⟨10⟩, .iterate] : List (Op Mod3)) = .ok (⟨[⟨2⟩, ⟨2⟩, ⟨0⟩], 1⟩,
      [.bool true, .bool false, .unit, .bool true, .nat 1, .list [⟨2⟩]]) := by
  rfl

example : EAdmissible 1 EAbs.empty ([.insert ⟨1⟩, .insert ⟨4⟩, .merge [⟨7⟩], .erase ⟨4⟩] :
    List (Op Mod3)) := by
  refine ⟨.inr (by decide), ?_⟩
  rintro s1 r1 ⟨_, h1⟩
  obtain ⟨⟨h1, _⟩, c1, _⟩ := h1 rfl
  have e1 : s1.fn ⟨4⟩ ≠ none := by rw [h1 _ rfl]; simp
  refine ⟨.inl e1, ?_⟩
  rintro s2 r2 ⟨h2, _⟩
  obtain ⟨rfl, _⟩ := h2 e1
  refine ⟨?_, fun _ _ _ => ⟨trivial, fun _ _ _ => trivial⟩⟩
  intro ys _ hys
  cases ys with
  | nil => rw [c1]; decide
  | cons y ys =>
    obtain ⟨h3, h4⟩ := hys y (by simp)
    simp at h3; subst h3
    rw [h1 _ rfl] at h4; simp at h4

end Verif.CxSet
