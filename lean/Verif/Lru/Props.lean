import Verif.Lru.Spec
import Verif.IList.Props
import Verif.CxMap.Props

/-!
# C146: a cache that drops what has not been used for longest
-/

namespace Verif.Lru

open Verif.IList (WorldOk)
open Verif.CxMap (MRep)

variable {κ ν : Type} [DecidableEq κ]

/-- The contents of the two lists. -/
def two (U F : List Nat) : Which → List Nat
  | .used => U
  | .unused => F

theorem on_used {c : IList.Cfg} {l : IList.World Which} {U F U' : List Nat} {o : IList.Op} {r : IList.Out} (hl : WorldOk c l (two U F))
    (hs : IList.specStep U o = some (U', r)) (hn : IList.NodeOk c l.heap.length (two U F) .used o) :
    ∃ l', IList.stepW c l .used o = .ok (l', r, 0) ∧ l'.heap.length = l.heap.length ∧ WorldOk c l' (two U' F) := by
  obtain ⟨l', e, h1, h2, _⟩ := IList.stepW_ok hl (i := .used) hs hn
  refine ⟨l', e, h1, ?_⟩
  have : (fun j => if j = Which.used then U' else two U F j) = two U' F := by funext j; cases j <;> rfl
  rw [this] at h2; exact h2

theorem on_unused {c : IList.Cfg} {l : IList.World Which} {U F F' : List Nat} {o : IList.Op} {r : IList.Out} (hl : WorldOk c l (two U F))
    (hs : IList.specStep F o = some (F', r)) (hn : IList.NodeOk c l.heap.length (two U F) .unused o) :
    ∃ l', IList.stepW c l .unused o = .ok (l', r, 0) ∧ l'.heap.length = l.heap.length ∧ WorldOk c l' (two U F') := by
  obtain ⟨l', e, h1, h2, _⟩ := IList.stepW_ok hl (i := .unused) hs hn
  refine ⟨l', e, h1, ?_⟩
  have : (fun j => if j = Which.unused then F' else two U F j) = two U F' := by funext j; cases j <;> rfl
  rw [this] at h2; exact h2

theorem no_node {c : IList.Cfg} {ls : Which → List Nat} {size : Nat} {i : Which} {o : IList.Op} (h : o.added = none) :
    IList.NodeOk c size ls i o :=
  ⟨fun n hn => (by rw [h] at hn; cases hn), fun n hn => (by rw [hn] at h; cases h)⟩

theorem new_node {c : IList.Cfg} {U F : List Nat} {size : Nat} {i : Which} {n : Nat} {o : IList.Op} (ho : o.added = some n)
    (hi : ∀ m, o ≠ .insert none m) (hn : n < size) (hU : n ∉ U) (hF : n ∉ F) : IList.NodeOk c size (two U F) i o :=
  ⟨fun m hm => by
    rw [ho] at hm; cases hm
    exact ⟨hn, fun j => by cases j <;> assumption⟩, fun m hm => absurd hm (hi m)⟩

/-- The invariant. -/
structure Inv (c : IList.Cfg) (N : Nat) (s : State κ ν) (U F : List Nat) (L : List (κ × ν)) : Prop where
  ok : WorldOk c s.world (two U F)
  len : s.world.heap.length = N
  all : U.length + F.length = N
  entries : U.map (fun n => (s.key n, s.val n)) = L
  keys : (U.map s.key).Nodup
  index : ∃ m : CxMap.Abs κ Nat, MRep N s.index m ∧ m.card = U.length ∧ ∀ k n, m.fn k = some n ↔ n ∈ U ∧ s.key n = k

theorem key_inj {f : Nat → κ} {U : List Nat} (h : (U.map f).Nodup) {a b : Nat} (ha : a ∈ U) (hb : b ∈ U) (e : f a = f b) : a = b := by
  induction U with
  | nil => cases ha
  | cons x U ih =>
    rw [List.map_cons, List.nodup_cons] at h
    rcases List.mem_cons.mp ha with ea | ha' <;> rcases List.mem_cons.mp hb with eb | hb'
    · rw [ea, eb]
    · subst ea; exact absurd (List.mem_map.mpr ⟨b, hb', e.symm⟩) h.1
    · subst eb; exact absurd (List.mem_map.mpr ⟨a, ha', e⟩) h.1
    · exact ih h.2 ha' hb'

/-- Leaving out a node is leaving out the entries of its key. -/
theorem without_node {key : Nat → κ} {val val' : Nat → ν} {U : List Nat} (h : (U.map key).Nodup) {n : Nat} (hn : n ∈ U)
    (hv : ∀ m, m ≠ n → val' m = val m) :
    (U.filter (· ≠ n)).map (fun m => (key m, val' m)) = without (U.map fun m => (key m, val m)) (key n) := by
  unfold without
  rw [List.filter_map]
  have : U.filter ((fun e : κ × ν => decide (e.1 ≠ key n)) ∘ fun m => (key m, val m)) = U.filter (· ≠ n) := by
    apply List.filter_congr
    intro m hm
    simp only [Function.comp]
    by_cases e : m = n
    · simp [e]
    · have : key m ≠ key n := fun g => e (key_inj h hm hn g)
      simp [e, this]
  rw [this]
  apply List.map_congr_left
  intro m hm
  have := (List.mem_filter.mp hm).2
  rw [hv m (by simpa using this)]

theorem touch_ok {c : IList.Cfg} {l : IList.World Which} {U F : List Nat} {n : Nat} (hl : WorldOk c l (two U F)) (hn : n ∈ U) :
    ∃ l', touch c l n = .ok l' ∧ l'.heap.length = l.heap.length ∧ WorldOk c l' (two (n :: U.filter (· ≠ n)) F) := by
  have hlt : n < l.heap.length := IList.links_lt _ (hl.wf .used).links n hn
  obtain ⟨l1, e1, a1, b1⟩ := on_used (o := .remove n) (U' := U.filter (· ≠ n)) (r := .unit) hl (by simp [IList.specStep, hn]) (no_node rfl)
  obtain ⟨l2, e2, a2, b2⟩ := on_used (o := .pushFront n) (U' := n :: U.filter (· ≠ n)) (r := .unit) b1 (by simp [IList.specStep])
    (new_node rfl (by simp) (by omega) (by simp) (hl.disj .used .unused (by simp) n hn))
  exact ⟨l2, by simp [touch, e1, e2], by omega, b2⟩

theorem length_without {U : List Nat} (h : U.Nodup) {n : Nat} (hn : n ∈ U) : (U.filter (· ≠ n)).length + 1 = U.length := by
  induction U with
  | nil => cases hn
  | cons x U ih =>
    rw [List.nodup_cons] at h
    by_cases e : x = n
    · subst e
      rw [List.filter_cons_of_neg (by simp), List.filter_eq_self.mpr (fun y hy => by simp; rintro rfl; exact h.1 hy)]
      simp
    · rw [List.filter_cons_of_pos (by simpa using e), List.length_cons, List.length_cons, ih h.2 (by simpa [Ne.symm e] using hn)]

theorem find_entry {s : State κ ν} {U : List Nat} (h : (U.map s.key).Nodup) {n : Nat} (hn : n ∈ U) :
    (U.map fun m => (s.key m, s.val m)).find? (fun e => e.1 = s.key n) = some (s.key n, s.val n) := by
  rw [List.find?_map]
  have : U.find? ((fun e : κ × ν => decide (e.1 = s.key n)) ∘ fun m => (s.key m, s.val m)) = some n := by
    induction U with
    | nil => cases hn
    | cons x U ih =>
      by_cases e : x = n
      · subst e; simp [List.find?_cons]
      · have hk : s.key x ≠ s.key n := fun g => e (key_inj h (by simp) hn g)
        have hn' : n ∈ U := by simpa [Ne.symm e] using hn
        rw [List.map_cons, List.nodup_cons] at h
        rw [List.find?_cons]
        simp only [Function.comp, hk, decide_false]
        exact ih h.2 hn'
  rw [this]; rfl

/-- Touching a node keeps the invariant. -/
theorem touched {c : IList.Cfg} {N : Nat} {s : State κ ν} {U F : List Nat} {L : List (κ × ν)} (h : Inv c N s U F L) {n : Nat} (hn : n ∈ U)
    {l' : IList.World Which} (h1 : l'.heap.length = s.world.heap.length) (h2 : WorldOk c l' (two (n :: U.filter (· ≠ n)) F))
    {val' : Nat → ν} (hv : ∀ m, m ≠ n → val' m = s.val m) :
    Inv c N ⟨l', s.key, val', s.index⟩ (n :: U.filter (· ≠ n)) F ((s.key n, val' n) :: without L (s.key n)) := by
  have hU : U.Nodup := (h.ok.wf .used).nodup
  have hl := length_without hU hn
  obtain ⟨m, i1, i2, i3⟩ := h.index
  refine ⟨h2, h1.trans h.len, by have := h.all; simp only [List.length_cons]; omega, ?_, ?_, m, i1, by simp only [List.length_cons]; omega, fun k x => ?_⟩
  · rw [List.map_cons, without_node h.keys hn hv, h.entries]
  · rw [List.map_cons, List.nodup_cons]
    refine ⟨fun hm => ?_, h.keys.sublist (List.filter_sublist.map _)⟩
    obtain ⟨x, hx, e⟩ := List.mem_map.mp hm
    obtain ⟨hx1, hx2⟩ := List.mem_filter.mp hx
    exact absurd (key_inj h.keys hx1 hn e) (by simpa using hx2)
  · rw [i3]
    simp only [List.mem_cons, List.mem_filter]
    constructor
    · rintro ⟨a, b⟩
      by_cases e : x = n
      · exact ⟨.inl e, b⟩
      · exact ⟨.inr ⟨a, by simpa using e⟩, b⟩
    · rintro ⟨a | a, b⟩
      · subst a; exact ⟨hn, b⟩
      · exact ⟨a.1, b⟩

/-- A key that is not in the cache. -/
theorem not_found {c : IList.Cfg} {N : Nat} {s : State κ ν} {U F : List Nat} {L : List (κ × ν)} (h : Inv c N s U F L) {k : κ}
    (hk : ∀ n ∈ U, s.key n ≠ k) : (L.find? fun e => e.1 = k) = none ∧ without L k = L := by
  have : ∀ e ∈ L, e.1 ≠ k := by
    intro e he
    rw [← h.entries] at he
    obtain ⟨n, hn, rfl⟩ := List.mem_map.mp he
    exact hk n hn
  refine ⟨by simpa using this, List.filter_eq_self.mpr (by simpa using this)⟩

/-- Whether the map has a key, and its node. -/
theorem lookup {c : IList.Cfg} {N : Nat} {s : State κ ν} {U F : List Nat} {L : List (κ × ν)} (h : Inv c N s U F L) (k : κ) :
    (CxMap.contains s.index k = .ok false ∧ ∀ n ∈ U, s.key n ≠ k) ∨
      ∃ n, CxMap.contains s.index k = .ok true ∧ CxMap.get s.index k = .ok n ∧ n ∈ U ∧ s.key n = k := by
  obtain ⟨m, i1, i2, i3⟩ := h.index
  have hc := CxMap.contains_rep i1 k
  have hg := CxMap.get_rep i1 k
  cases hm : m.fn k with
  | none =>
    left
    rw [hm] at hc
    refine ⟨hc, fun n hn e => ?_⟩
    rw [(i3 k n).mpr ⟨hn, e⟩] at hm; cases hm
  | some n =>
    right
    rw [hm] at hc hg
    obtain ⟨a, b⟩ := (i3 k n).mp hm
    exact ⟨n, hc, hg, a, b⟩

theorem upd_some {fn : κ → Option Nat} {k j : κ} {n x : Nat} :
    CxMap.upd fn k (some n) j = some x ↔ (j = k ∧ x = n) ∨ (j ≠ k ∧ fn j = some x) := by
  unfold CxMap.upd
  by_cases e : j = k
  · simp [e, eq_comm]
  · simp [e]

theorem upd_none {fn : κ → Option Nat} {k j : κ} {x : Nat} : CxMap.upd fn k none j = some x ↔ j ≠ k ∧ fn j = some x := by
  unfold CxMap.upd
  by_cases e : j = k
  · simp [e]
  · simp [e]

/-- Making room: the node is in no list, and the entries that stay are the first `N - 1`. -/
theorem room_ok {c : IList.Cfg} {N : Nat} (hN : 0 < N) {s : State κ ν} {U F : List Nat} {L : List (κ × ν)} (h : Inv c N s U F L) :
    ∃ l i n U' F' m, room c N s = .ok (l, i, n) ∧ l.heap.length = N ∧ WorldOk c l (two U' F') ∧ n < N ∧ n ∉ U' ∧ n ∉ F' ∧
      U'.length + F'.length + 1 = N ∧ U' = U.take (N - 1) ∧
      MRep N i m ∧ m.card = U'.length ∧ ∀ k x, m.fn k = some x ↔ x ∈ U' ∧ s.key x = k := by
  obtain ⟨m, i1, i2, i3⟩ := h.index
  have hsize : s.index.size = U.length := by
    obtain ⟨l, hr, _, _, hc⟩ := i1
    rw [hr.size, ← i2, hc]
  have hU : U.Nodup := (h.ok.wf .used).nodup
  have hF : F.Nodup := (h.ok.wf .unused).nodup
  have hall := h.all
  unfold room
  by_cases hfull : U.length = N
  · rw [if_pos (by simp [hsize, hfull])]
    have hne : U ≠ [] := by rintro rfl; simp at hfull; omega
    obtain ⟨A, n, rfl⟩ : ∃ A n, U = A ++ [n] := ⟨U.dropLast, U.getLast hne, (List.dropLast_concat_getLast hne).symm⟩
    have hn : n < s.world.heap.length := IList.links_lt _ (h.ok.wf .used).links n (by simp [two])
    obtain ⟨l1, e1, a1, b1⟩ := on_used (o := .popBack) (U' := A) (r := .node (some n)) h.ok (by simp [IList.specStep]) (no_node rfl)
    have hk : m.fn (s.key n) = some n := (i3 _ _).mpr ⟨by simp, rfl⟩
    obtain ⟨i', nn, e2, c1, r1⟩ := (CxMap.erase_rep i1 (s.key n)).2 (by rw [hk]; simp)
    have hA : n ∉ A := fun hm => (List.nodup_append.mp hU).2.2 n hm n (by simp) rfl
    refine ⟨l1, i', n, A, F, _, by simp [e1, popped, e2], a1.trans h.len, b1, by rw [← h.len]; exact hn, hA,
      h.ok.disj .used .unused (by simp) n (by simp [two]), by simp at hall; omega, ?_, r1, ?_, fun k x => ?_⟩
    · have : A.length = N - 1 := by simp at hfull; omega
      rw [← this, List.take_left']
      rfl
    · simp at i2 ⊢; omega
    · simp only [upd_none, i3]
      constructor
      · rintro ⟨a, b, rfl⟩
        rcases List.mem_append.mp b with b | b
        · exact ⟨b, rfl⟩
        · simp at b; subst b; exact absurd rfl a
      · rintro ⟨a, rfl⟩
        refine ⟨fun g => ?_, by simp [a], rfl⟩
        have := key_inj h.keys (a := x) (b := n) (by simp [a]) (by simp) g
        subst this; exact hA a
  · rw [if_neg (by simp [hsize, hfull])]
    cases hF' : F with
    | nil => subst hF'; simp at hall; omega
    | cons n F' =>
      subst hF'
      have hn : n < s.world.heap.length := IList.links_lt _ (h.ok.wf .unused).links n (by simp [two])
      obtain ⟨l1, e1, a1, b1⟩ := on_unused (o := .popFront) (F' := F') (r := .node (some n)) h.ok (by simp [IList.specStep]) (no_node rfl)
      simp only [List.length_cons] at hall
      refine ⟨l1, s.index, n, U, F', m, by simp [e1, popped], a1.trans h.len, b1, by rw [← h.len]; exact hn,
        fun hm => h.ok.disj .used .unused (by simp) n hm (by simp [two]), (List.nodup_cons.mp hF).1, by omega,
        (List.take_of_length_le (by omega)).symm, i1, i2, i3⟩

theorem step_ok {c : IList.Cfg} {N : Nat} (hN : 0 < N) (hs : N < szMod) {s : State κ ν} {U F : List Nat} {L : List (κ × ν)}
    (h : Inv c N s U F L) (k : Cmd κ ν) :
    ∃ s' U' F', step c N s k = .ok (s', (answer N L k).2) ∧ Inv c N s' U' F' (answer N L k).1 := by
  have hU : U.Nodup := (h.ok.wf .used).nodup
  have hLlen : L.length ≤ N := by rw [← h.entries, List.length_map]; have := h.all; omega
  cases k with
  | get k =>
    rcases lookup h k with ⟨e1, hk⟩ | ⟨n, e1, e2, hn, rfl⟩
    · refine ⟨s, U, F, ?_, ?_⟩
      · simp [step, e1, answer, (not_found h hk).1]
      · simp only [answer, (not_found h hk).1]; exact h
    · obtain ⟨l', e3, a1, a2⟩ := touch_ok h.ok hn
      have hf := find_entry (s := s) h.keys hn
      rw [h.entries] at hf
      refine ⟨⟨l', s.key, s.val, s.index⟩, n :: U.filter (· ≠ n), F, ?_, ?_⟩
      · simp [step, e1, e2, e3, answer, hf]
      · simp only [answer, hf]
        exact touched h hn a1 a2 (fun _ _ => rfl)
  | put k v =>
    rcases lookup h k with ⟨e1, hk⟩ | ⟨n, e1, e2, hn, rfl⟩
    · obtain ⟨l, i, n, U', F', m, e2, a1, a2, a3, a4, a5, a6, a7, m1, m2, m3⟩ := room_ok hN h
      have hkm : m.fn k = none := by
        cases hm : m.fn k with
        | none => rfl
        | some x =>
          obtain ⟨x1, x2⟩ := (m3 k x).mp hm
          rw [a7] at x1
          exact absurd x2 (hk x (List.mem_of_mem_take x1))
      obtain ⟨i', e3, m4⟩ := CxMap.insert_rep hs m1 k n hkm (by omega)
      obtain ⟨l', e4, b1, b2⟩ := on_used (o := .pushFront n) (U' := n :: U') (r := .unit) a2 (by simp [IList.specStep])
        (new_node rfl (by simp) (by omega) a4 a5)
      have hne : ∀ x ∈ U', x ≠ n := fun x hx e => a4 (e ▸ hx)
      have hmap : U'.map (fun m => if m = n then k else s.key m) = U'.map s.key :=
        List.map_congr_left fun x hx => by simp [hne x hx]
      refine ⟨⟨l', fun m => if m = n then k else s.key m, fun m => if m = n then v else s.val m, i'⟩, n :: U', F', ?_,
        b2, b1.trans a1, by simp only [List.length_cons]; omega, ?_, ?_, _, m4, by simp [m2], fun j x => ?_⟩
      · simp [step, e1, e2, e3, e4, answer]
      · simp only [answer, (not_found h hk).2, List.map_cons, if_true]
        have : N = (N - 1) + 1 := by omega
        conv => rhs; rw [this, List.take_succ_cons]
        rw [← h.entries, ← List.map_take, ← a7]
        congr 1
        exact List.map_congr_left fun x hx => by simp [hne x hx]
      · rw [List.map_cons, List.nodup_cons]
        refine ⟨fun hm => ?_, ?_⟩
        · obtain ⟨x, hx, e⟩ := List.mem_map.mp hm
          simp only [hne x hx, if_false, if_true] at e
          rw [a7] at hx
          exact hk x (List.mem_of_mem_take hx) e
        · rw [hmap, a7, List.map_take]
          exact h.keys.sublist (List.take_sublist _ _)
      · simp only [upd_some, m3, List.mem_cons]
        constructor
        · rintro (⟨rfl, rfl⟩ | ⟨g1, g2, g3⟩)
          · simp
          · exact ⟨.inr g2, by simp [hne x g2, g3]⟩
        · rintro ⟨rfl | g1, g2⟩
          · simp at g2; exact .inl ⟨g2.symm, rfl⟩
          · simp only [hne x g1, if_false] at g2
            refine .inr ⟨fun g3 => ?_, g1, g2⟩
            subst g3
            rw [a7] at g1
            exact hk x (List.mem_of_mem_take g1) g2
    · obtain ⟨l', e3, a1, a2⟩ := touch_ok h.ok hn
      have hi := touched h hn a1 a2 (val' := fun m => if m = n then v else s.val m) (fun m hm => by simp [hm])
      refine ⟨⟨l', s.key, fun m => if m = n then v else s.val m, s.index⟩, n :: U.filter (· ≠ n), F, ?_, ?_⟩
      · simp [step, e1, e2, e3, answer]
      · simp only [answer]
        rw [List.take_of_length_le]
        · simpa using hi
        · have h1 := hi.entries
          have h2 := hi.all
          simp only [if_true] at h1
          rw [← h1, List.length_map]
          omega
  | erase k =>
    rcases lookup h k with ⟨e1, hk⟩ | ⟨n, e1, e2, hn, rfl⟩
    · refine ⟨s, U, F, ?_, ?_⟩
      · simp [step, e1, answer]
      · simp only [answer, (not_found h hk).2]; exact h
    · obtain ⟨m, i1, i2, i3⟩ := h.index
      have hk : m.fn (s.key n) = some n := (i3 _ _).mpr ⟨hn, rfl⟩
      obtain ⟨i', nn, e3, c1, r1⟩ := (CxMap.erase_rep i1 (s.key n)).2 (by rw [hk]; simp)
      have hlt : n < s.world.heap.length := IList.links_lt _ (h.ok.wf .used).links n hn
      obtain ⟨l1, e4, a1, b1⟩ := on_used (o := .remove n) (U' := U.filter (· ≠ n)) (r := .unit) h.ok (by simp [IList.specStep, hn]) (no_node rfl)
      obtain ⟨l2, e5, a2, b2⟩ := on_unused (o := .pushFront n) (F' := n :: F) (r := .unit) b1 (by simp [IList.specStep])
        (new_node rfl (by simp) (by omega) (by simp) (h.ok.disj .used .unused (by simp) n hn))
      have hl := length_without hU hn
      have hall := h.all
      refine ⟨⟨l2, s.key, s.val, i'⟩, U.filter (· ≠ n), n :: F, ?_, b2, (a2.trans a1).trans h.len, ?_, ?_, ?_, _, r1, ?_, fun k x => ?_⟩
      · simp [step, e1, e2, e3, e4, e5, answer]
      · simp only [List.length_cons]; omega
      · simp only [answer]
        rw [without_node h.keys hn (fun _ _ => rfl), h.entries]
      · exact h.keys.sublist (List.filter_sublist.map _)
      · simp only; omega
      · simp only [upd_none, i3, List.mem_filter]
        constructor
        · rintro ⟨g1, g2, g3⟩
          refine ⟨⟨g2, ?_⟩, g3⟩
          simp only [ne_eq, decide_not, Bool.not_eq_eq_eq_not, Bool.not_true, decide_eq_false_iff_not]
          rintro rfl; exact g1 g3.symm
        · rintro ⟨⟨g1, g2⟩, g3⟩
          refine ⟨fun g4 => ?_, g1, g3⟩
          have := key_inj h.keys g1 hn (g3.trans g4)
          simp [this] at g2

theorem run_ok {c : IList.Cfg} {N : Nat} (hN : 0 < N) (hs : N < szMod) : ∀ (ks : List (Cmd κ ν)) {s : State κ ν} {U F : List Nat}
    {L : List (κ × ν)}, Inv c N s U F L → ∃ s', run c N s ks = .ok (s', answers N L ks) := by
  intro ks
  induction ks with
  | nil => intro s U F L _; exact ⟨s, rfl⟩
  | cons k ks ih =>
    intro s U F L h
    obtain ⟨s1, U1, F1, e1, h1⟩ := step_ok hN hs h k
    obtain ⟨s2, e2⟩ := ih h1
    exact ⟨s2, by simp [run, e1, e2, answers]⟩

theorem fill_ok {c : IList.Cfg} : ∀ (ns F : List Nat) {l : IList.World Which}, WorldOk c l (two [] F) → (F ++ ns).Nodup →
    (∀ n ∈ ns, n < l.heap.length) → ∃ l', fill c ns l = .ok l' ∧ l'.heap.length = l.heap.length ∧ WorldOk c l' (two [] (F ++ ns)) := by
  intro ns
  induction ns with
  | nil => intro F l hl _ _; exact ⟨l, rfl, rfl, by simpa using hl⟩
  | cons n ns ih =>
    intro F l hl hd hn
    obtain ⟨l1, e1, a1, b1⟩ := on_unused (o := .pushBack n) (F' := F ++ [n]) (r := .unit) hl (by simp [IList.specStep])
      (new_node rfl (by simp) (hn n (by simp)) (by simp) (fun hm => (List.nodup_append.mp hd).2.2 n hm n (by simp) rfl))
    obtain ⟨l2, e2, a2, b2⟩ := ih (F ++ [n]) b1 (by simpa using hd) (fun x hx => by rw [a1]; exact hn x (by simp [hx]))
    exact ⟨l2, by simp [fill, e1, e2], by omega, by simpa using b2⟩

/-- **C146.** For every number of nodes but zero and either policy of the list, every history of the cache is defined and answers as a list of
entries that drops what has not been used for longest. -/
theorem C146_cache {c : IList.Cfg} {h : IList.Heap} (hN : 0 < h.length) (hs : h.length < szMod) (hf : IList.Fresh c h) (key : Nat → κ)
    (val : Nat → ν) (d : κ × Nat) (ks : List (Cmd κ ν)) :
    ∃ s s', initial c h.length h key val d = .ok s ∧ run c h.length s ks = .ok (s', answers h.length [] ks) := by
  have h0 : WorldOk c (IList.start Which h) (two [] []) := by
    have := IList.start_ok (ι := Which) hf
    have e : (fun _ : Which => ([] : List Nat)) = two [] [] := by funext j; cases j <;> rfl
    rw [e] at this; exact this
  obtain ⟨l, e, a, b⟩ := fill_ok (List.range h.length) [] h0 (by simpa using List.nodup_range) (fun n hn => by
    have : n < h.length := by simpa using hn
    exact this)
  have e' : fill c (List.range h.length) ⟨h, fun _ => ⟨none, none⟩⟩ = .ok l := e
  obtain ⟨s', e2⟩ := run_ok hN hs ks (s := ⟨l, key, val, Buf.init h.length d⟩) (U := []) (F := List.range h.length) (L := []) (c := c)
    ⟨by simpa using b, a, by simp, rfl, by simp, CxMap.Abs.empty, CxMap.mrep_init _ _, rfl, by simp [CxMap.Abs.empty]⟩
  exact ⟨_, s', by simp [initial, e'], e2⟩

theorem answers_append (N : Nat) : ∀ (as bs : List (Cmd κ ν)) (l : List (κ × ν)),
    answers N l (as ++ bs) = answers N l as ++ answers N (after N l as) bs := by
  intro as
  induction as with
  | nil => intro bs l; rfl
  | cons a as ih => intro bs l; simp [answers, after, ih]

theorem without_append (A B : List (κ × ν)) (k : κ) : without (A ++ B) k = without A k ++ without B k := by
  simp [without]

theorem length_keys_le {A : List (κ × ν)} {S : List κ} (hd : (A.map Prod.fst).Nodup) (hS : ∀ e ∈ A, e.1 ∈ S) : A.length ≤ S.length := by
  have := hd.length_le_of_subset (l₂ := S) (by
    intro x hx
    obtain ⟨e, he, rfl⟩ := List.mem_map.mp hx
    exact hS e he)
  simpa using this

theorem kept {N : Nat} {k : κ} {v : ν} {S : List κ} (hS : S.length < N) (hk : k ∉ S) : ∀ (ks : List (Cmd κ ν)) (A B : List (κ × ν)),
    (∀ c ∈ ks, c.key ∈ S) → (A.map Prod.fst).Nodup → (∀ e ∈ A, e.1 ∈ S) →
    ∃ A' B', after N (A ++ (k, v) :: B) ks = A' ++ (k, v) :: B' ∧ ∀ e ∈ A', e.1 ∈ S := by
  intro ks
  induction ks with
  | nil => intro A B _ _ hA; exact ⟨A, B, rfl, hA⟩
  | cons c ks ih =>
    intro A B hc hd hA
    have hcS := hc c (by simp)
    have hne : k ≠ c.key := fun e => hk (e ▸ hcS)
    have hwd : ((without A c.key).map Prod.fst).Nodup := hd.sublist (List.filter_sublist.map _)
    have hwS : ∀ e ∈ without A c.key, e.1 ∈ S := fun e he => hA e (List.mem_filter.mp he).1
    have hwn : c.key ∉ (without A c.key).map Prod.fst := by
      intro hm
      obtain ⟨e, he, h1⟩ := List.mem_map.mp hm
      have := (List.mem_filter.mp he).2
      simp [h1] at this
    have hw : without (A ++ (k, v) :: B) c.key = without A c.key ++ (k, v) :: without B c.key := by
      rw [without_append]
      congr 1
      simp [without, hne]
    have hrest : ∀ x ∈ ks, x.key ∈ S := fun x hx => hc x (by simp [hx])
    cases c with
    | get j =>
      simp only [after, answer]
      cases hf : (A ++ (k, v) :: B).find? fun e => e.1 = j with
      | none => exact ih A B hrest hd hA
      | some e =>
        have hej : e.1 = j := by simpa using List.find?_some hf
        simp only [Cmd.key] at hw hwn hwd hwS hcS
        simp only [hw]
        refine ih (e :: without A j) (without B j) hrest ?_ ?_
        · rw [List.map_cons, List.nodup_cons, hej]; exact ⟨hwn, hwd⟩
        · intro x hx
          rcases List.mem_cons.mp hx with rfl | hx
          · rw [hej]; exact hcS
          · exact hwS x hx
    | put j u =>
      simp only [Cmd.key] at hw hwn hwd hwS hcS
      have hd' : (((j, u) :: without A j).map Prod.fst).Nodup := by
        rw [List.map_cons, List.nodup_cons]; exact ⟨hwn, hwd⟩
      have hS' : ∀ e ∈ (j, u) :: without A j, e.1 ∈ S := by
        intro x hx
        rcases List.mem_cons.mp hx with rfl | hx
        · exact hcS
        · exact hwS x hx
      have hle := length_keys_le hd' hS'
      simp only [after, answer, hw]
      have : ((j, u) :: (without A j ++ (k, v) :: without B j)).take N =
          ((j, u) :: without A j) ++ (k, v) :: (without B j).take (N - ((j, u) :: without A j).length - 1) := by
        rw [← List.cons_append, List.take_append, List.take_of_length_le (by omega)]
        congr 1
        obtain ⟨q, hq⟩ : ∃ q, N - ((j, u) :: without A j).length = q + 1 := ⟨N - ((j, u) :: without A j).length - 1, by omega⟩
        rw [hq]; rfl
      rw [this]
      exact ih _ _ hrest hd' hS'
    | erase j =>
      simp only [Cmd.key] at hw hwn hwd hwS hcS
      simp only [after, answer, hw]
      exact ih _ _ hrest hwd hwS

/-- **C146, what is kept.** A value that was put is found if fewer than `N` other keys have been used since, however often. -/
theorem C146_kept {c : IList.Cfg} {h : IList.Heap} (hN : 0 < h.length) (hs : h.length < szMod) (hf : IList.Fresh c h) (key : Nat → κ)
    (val : Nat → ν) (d : κ × Nat) (before ks : List (Cmd κ ν)) (k : κ) (v : ν) {S : List κ} (hS : S.length < h.length) (hk : k ∉ S)
    (hks : ∀ x ∈ ks, x.key ∈ S) :
    ∃ s s' rs, initial c h.length h key val d = .ok s ∧ run c h.length s (before ++ .put k v :: ks ++ [.get k]) = .ok (s', rs ++ [some v]) := by
  obtain ⟨s, s', e1, e2⟩ := C146_cache hN hs hf key val d (before ++ .put k v :: ks ++ [.get k])
  refine ⟨s, s', answers h.length [] (before ++ .put k v :: ks), e1, ?_⟩
  rw [e2, answers_append]
  congr 3
  have ha : ∀ (as bs : List (Cmd κ ν)) (l : List (κ × ν)), after h.length l (as ++ bs) = after h.length (after h.length l as) bs := by
    intro as
    induction as with
    | nil => intro bs l; rfl
    | cons a as ih => intro bs l; simp [after, ih]
  rw [ha]
  generalize after h.length [] before = L
  simp only [after, answer]
  obtain ⟨q, hq⟩ : ∃ q, h.length = q + 1 := ⟨h.length - 1, by omega⟩
  have : ((k, v) :: without L k).take h.length = [] ++ (k, v) :: (without L k).take q := by rw [hq]; rfl
  rw [this]
  obtain ⟨A, B, e3, hA⟩ := kept (v := v) hS hk ks [] ((without L k).take q) hks (by simp) (by simp)
  rw [e3]
  have hfind : ((A ++ (k, v) :: B).find? fun e => e.1 = k) = some (k, v) := by
    rw [List.find?_append, List.find?_eq_none.mpr (fun e he => by
      simp only [decide_eq_true_eq]; rintro rfl; exact hk (hA e he))]
    simp
  simp [answers, answer, hfind]

/-- **C146, what is dropped.** A key is not found after `N` other keys have been put. -/
theorem C146_dropped {c : IList.Cfg} {h : IList.Heap} (hN : 0 < h.length) (hs : h.length < szMod) (hf : IList.Fresh c h) (key : Nat → κ)
    (val : Nat → ν) (d : κ × Nat) (before : List (Cmd κ ν)) {es : List (κ × ν)} (hd : (es.map Prod.fst).Nodup) (hl : es.length = h.length)
    {k : κ} (hk : k ∉ es.map Prod.fst) :
    ∃ s s' rs, initial c h.length h key val d = .ok s ∧
      run c h.length s (before ++ es.map (fun e => .put e.1 e.2) ++ [.get k]) = .ok (s', rs ++ [none]) := by
  obtain ⟨s, s', e1, e2⟩ := C146_cache hN hs hf key val d (before ++ es.map (fun e => .put e.1 e.2) ++ [.get k])
  refine ⟨s, s', answers h.length [] (before ++ es.map (fun e => .put e.1 e.2)), e1, ?_⟩
  rw [e2, answers_append]
  congr 3
  have ha : ∀ (as bs : List (Cmd κ ν)) (l : List (κ × ν)), after h.length l (as ++ bs) = after h.length (after h.length l as) bs := by
    intro as
    induction as with
    | nil => intro bs l; rfl
    | cons a as ih => intro bs l; simp [after, ih]
  rw [ha]
  generalize after h.length [] before = L
  have key : ∀ (es A B : List (κ × ν)), ((A ++ es).map Prod.fst).Nodup → A.length + es.length ≤ h.length →
      ∃ B', after h.length ((A.reverse ++ B).take h.length) (es.map fun e => .put e.1 e.2) = ((A ++ es).reverse ++ B').take h.length := by
    intro es
    induction es with
    | nil => intro A B _ _; exact ⟨B, by simp [after]⟩
    | cons e es ih =>
      intro A B hn hle
      simp only [List.length_cons] at hle
      have hAe : ∀ x ∈ A, x.1 ≠ e.1 := by
        intro x hx g
        rw [List.map_append, List.nodup_append] at hn
        exact hn.2.2 x.1 (List.mem_map_of_mem hx) e.1 (by simp) g
      have hw : without ((A.reverse ++ B).take h.length) e.1 = A.reverse ++ without (B.take (h.length - A.length)) e.1 := by
        rw [List.take_append, List.take_of_length_le (by simp; omega), without_append, List.length_reverse]
        congr 1
        exact List.filter_eq_self.mpr (by simpa using fun a b hx => hAe (a, b) hx)
      obtain ⟨B', e3⟩ := ih (A ++ [e]) (without (B.take (h.length - A.length)) e.1) (by simpa using hn) (by simp; omega)
      refine ⟨B', ?_⟩
      simp only [List.map_cons, after, answer, hw]
      simpa using e3
  cases es with
  | nil => simp at hl; omega
  | cons e es =>
    simp only [List.map_cons, after, answer]
    obtain ⟨B', e3⟩ := key es [e] (without L e.1) (by simpa using hd) (by simp at hl ⊢; omega)
    rw [show ((e.1, e.2) :: without L e.1).take h.length = ([e].reverse ++ without L e.1).take h.length from rfl, e3]
    have : (([e] ++ es).reverse ++ B').take h.length = (e :: es).reverse := by
      rw [← hl]
      exact List.take_left' (by simp)
    rw [this]
    have hfind : ((e :: es).reverse.find? fun x => x.1 = k) = none := by
      rw [List.find?_eq_none]
      intro x hx
      simp only [decide_eq_true_eq]
      rintro rfl
      exact hk (List.mem_map_of_mem (List.mem_reverse.mp hx))
    simp only [answers, answer, hfind]

/-- Two nodes: 1 is used after 2, so 3 drops 2. -/
example : answers 2 [] ([.put 1 10, .put 2 20, .get 1, .put 3 30, .get 2, .get 1, .erase 1, .get 1, .put 3 31, .get 3] : List (Cmd Nat Nat)) =
    [none, none, some 10, none, none, some 10, none, none, none, some 31] := by decide

example : IList.Fresh ⟨.checked, .noreturn⟩ (List.replicate 2 ⟨none, none⟩) := by intro _ nd h; exact List.eq_of_mem_replicate h

end Verif.Lru
