import Verif.CxMap.Lemmas

/-!
# Properties of `stdx::cx_map`  (C28, C30)
-/

namespace Verif.CxMap

open Verif.Buf

variable {κ ν : Type} [DecidableEq κ]

/-- **C28.** For every capacity, key and value type and admissible history, `cx_map` has no
undefined behaviour, answers as the abstract finite partial function does, and ends
representing it. -/
theorem C28_cx_map_refines_partial_function (N : Nat) (d : κ × ν) (hN : N < szMod)
    (ops : List (Op κ ν)) (ha : Admissible N Abs.empty ops) :
    ∃ b' m' rs, run N (init N d) ops = .ok (b', rs) ∧ SpecRun N Abs.empty ops m' rs ∧
      b'.size = m'.card ∧ m'.card ≤ N ∧ (∀ k, contains b' k = .ok (m'.fn k).isSome) ∧
      (∀ k v, get b' k = .ok v ↔ m'.fn k = some v) ∧
      ∃ l, elems b' = .ok l ∧ (l.map Prod.fst).Nodup ∧ (∀ k v, (k, v) ∈ l ↔ m'.fn k = some v) ∧
        l.length = m'.card := by
  obtain ⟨b', m', rs, e, hs, hb⟩ := run_refines hN ops (mrep_init N d) ha
  have hcont := contains_rep hb
  have hget := get_rep hb
  obtain ⟨l, hr, hn, hm, hc⟩ := hb
  refine ⟨b', m', rs, e, hs, by rw [hr.size, hc], by rw [hc]; exact hr.le, hcont, ?_, l, hr.elems,
    hn, fun k v => (hm k v).symm, hc.symm⟩
  intro k v
  rw [hget]
  cases m'.fn k <;> simp

example : Admissible 2 Abs.empty ([.put 1 10, .put 2 20, .put 1 11, .get 1, .erase 1, .put 3 30,
    .assignGet 3 31, .contains 1, .popBack, .iterate] : List (Op Nat Nat)) := by
  simp only [Admissible, Pre, Post, Abs.empty]
  grind

example : run 2 (init 2 (0, 0)) ([.put 1 10, .put 2 20, .put 1 11, .get 1, .erase 1,
    .contains 1, .iterate] : List (Op Nat Nat)) = .ok (⟨[(2, 20), (2, 20)], 1⟩,
      [.bool true, .bool true, .bool false, .val 11, .nat 1, .bool false, .list [(2, 20)]]) := by
  decide

/-- **C28 (undefined cases).** In every representing state an operation is undefined exactly
when its precondition fails: a new key on a full map, popping an empty map, or `get` of a
missing key. -/
theorem C28_cx_map_ub_iff (N : Nat) (hN : N < szMod) (b : Buf (κ × ν)) (m : Abs κ ν)
    (h : MRep N b m) (o : Op κ ν) : step N b o = .ub ↔ ¬ Pre N m o := by
  constructor
  · intro hub hp
    obtain ⟨_, _, _, e, _⟩ := step_refines hN h o hp
    rw [e] at hub; simp at hub
  · intro hp
    have hget := get_rep h
    obtain ⟨l, hr, hn, hm, hc⟩ := h
    have hle := hr.le
    cases o with
    | put k v =>
      simp only [Pre, not_or] at hp
      have hk : m.fn k = none := Classical.not_not.mp hp.1
      have hno := (not_congr (key_mem hm k)).mp (by simp [hk])
      simp [step, insertOrAssign, hr.find, find_none hno, hr.append_ub (by omega : l.length = N)]
    | popBack =>
      have hl : l = [] := by
        have : m.card = 0 := Classical.not_not.mp hp
        rw [hc] at this; exact List.length_eq_zero_iff.mp this
      subst hl
      simp [step, hr.popBack_ub hN]
    | get k =>
      have hk : m.fn k = none := Classical.not_not.mp hp
      simp [step, hget, hk]
    | assignGet k v =>
      have hk : m.fn k = none := Classical.not_not.mp hp
      have hno := (not_congr (key_mem hm k)).mp (by simp [hk])
      simp [step, assignGet, hr.find, find_none hno]
    | erase k => exact absurd trivial hp
    | clear => exact absurd trivial hp
    | contains k => exact absurd trivial hp
    | size => exact absurd trivial hp
    | empty => exact absurd trivial hp
    | full => exact absurd trivial hp
    | iterate => exact absurd trivial hp

example : MRep 2 (⟨[(1, 5), (0, 0)], 1⟩ : Buf (Nat × Nat))
    ⟨fun k => if k = 1 then some 5 else none, 1⟩ :=
  ⟨[(1, 5)], ⟨rfl, rfl, [(0, 0)], rfl⟩, by decide, by intro k v; simp; grind, rfl⟩

/-- **C30, partial (maps).** If the initial keys are pairwise distinct, the constructed map
represents exactly the listed pairs, so every later admissible history behaves as for an
abstract partial function.  Missing for the full claim: repeated keys, for which it is false
(`C30_cx_map_initial_fails`). -/
theorem C30_cx_map_initial_partial (N : Nat) (d : κ × ν) (hN : N < szMod) (ts : List (κ × ν))
    (b : Buf (κ × ν)) (hb : ofList N d ts = some b) (hd : (ts.map Prod.fst).Nodup)
    (m : Abs κ ν) (hm : ∀ k v, m.fn k = some v ↔ (k, v) ∈ ts) (hc : m.card = ts.length)
    (ops : List (Op κ ν)) (ha : Admissible N m ops) :
    ∃ b' m' rs, run N b ops = .ok (b', rs) ∧ SpecRun N m ops m' rs ∧ MRep N b' m' :=
  run_refines hN ops ⟨ts, Rep.ofList hb, hd, hm, hc⟩ ha

/-- Every list with distinct keys has such an abstract map, so the previous theorem applies
to all of them. -/
theorem C30_cx_map_initial_abs_exists (ts : List (κ × ν)) (hd : (ts.map Prod.fst).Nodup) :
    ∃ m : Abs κ ν, (∀ k v, m.fn k = some v ↔ (k, v) ∈ ts) ∧ m.card = ts.length := by
  refine ⟨⟨fun k => (ts.find? (fun e => e.1 == k)).map Prod.snd, ts.length⟩, ?_, rfl⟩
  intro k v
  simp only [Option.map_eq_some_iff]
  constructor
  · rintro ⟨⟨a, w⟩, h1, h2⟩
    have hm := List.mem_of_find?_eq_some h1
    have hk := List.find?_some h1
    simp at hk h2
    subst hk; subst h2; exact hm
  · intro h
    have : (ts.find? (fun e => e.1 == k)).isSome := by
      rw [List.find?_isSome]; exact ⟨_, h, by simp⟩
    obtain ⟨⟨a, w⟩, he⟩ := Option.isSome_iff_exists.mp this
    have hm := List.mem_of_find?_eq_some he
    have hk := List.find?_some he
    simp at hk
    subst hk
    exact ⟨_, he, unique_val hd hm h⟩

/-- **C30 (first value wins).** Whatever the list of initial pairs, `contains` is membership
of the key and `get` returns the value of the *first* pair with that key. -/
theorem C30_cx_map_initial_get (N : Nat) (d : κ × ν) (ts : List (κ × ν)) (b : Buf (κ × ν))
    (hb : ofList N d ts = some b) (k : κ) :
    contains b k = .ok (decide (k ∈ ts.map Prod.fst)) ∧
    (∀ pre v post, ts = pre ++ (k, v) :: post → k ∉ pre.map Prod.fst → get b k = .ok v) := by
  have hr := Rep.ofList hb
  constructor
  · unfold contains
    rw [hr.find]
    by_cases hk : k ∈ ts.map Prod.fst
    · have : (ts.findIdx? (fun e => e.1 == k)).isSome := by
        rw [List.findIdx?_isSome]; simpa using hk
      simp only [Outcome.ok_bind, this, Outcome.pure_eq_ok, hk, decide_true]
    · have := find_none (l := ts) (k := k) (by simpa using hk)
      simp only [this, Outcome.ok_bind, Outcome.pure_eq_ok, hk, decide_false]; rfl
  · intro pre v post he hk
    subst he
    have hi : (pre ++ (k, v) :: post).findIdx? (fun e => e.1 == k) = some pre.length := by
      rw [List.findIdx?_append, find_none (l := pre) (k := k) (by simpa using hk)]
      simp [List.findIdx?_cons]
    have hg := hr.get (i := pre.length) (by simp)
    simp at hg
    simp [get, hr.find, hi, hg]

/-- **C30 fails** for repeated initial keys: `cx_map{{k, v}, {k, w}}` reports size 2, and
after `erase(k)` (which reports one removal) it still contains `k`. -/
theorem C30_cx_map_initial_fails (k : κ) (v w : ν) (d : κ × ν) :
    ∃ b b', ofList 2 d [(k, v), (k, w)] = some b ∧ b.size = 2 ∧
      erase b k = .ok (b', 1) ∧ contains b' k = .ok true ∧ get b' k = .ok w := by
  refine ⟨⟨[(k, v), (k, w)], 2⟩, ⟨[(k, w), (k, w)], 1⟩, rfl, rfl, ?_, ?_, ?_⟩
  · simp [erase, eraseIf, find, scan, arrGet, szDec]
  · simp [contains, find, scan, arrGet]
  · simp [get, find, scan, arrGet]

example : ofList 3 (0, 0) [(1, 5), (2, 6)] = some (⟨[(1, 5), (2, 6), (0, 0)], 2⟩ : Buf (Nat × Nat)) ∧
    (([(1, 5), (2, 6)] : List (Nat × Nat)).map Prod.fst).Nodup := by decide

end Verif.CxMap
