import Verif.Throw.Model
import Verif.Refs.Props
import Verif.CxQueue.Lemmas

/-!
# Element types whose copies and moves throw  (C117)
-/

namespace Verif.Throw

open Verif.Buf

variable {α κ ν : Type}

/-! ## Without throwing -/

/-- **C117, nothing thrown.** If no copy throws, the operations are those that the other properties are about. -/
theorem C117_no_throw [DecidableEq α] [DecidableEq κ] :
    (∀ (b : Buf α) (x : α), append b x none = (do let b' ← Buf.append b x; return (b', false))) ∧
    (∀ b : Buf α, popBack b false = (do let (b', x) ← Buf.popBack b; return (b', some x))) ∧
    (∀ (p : α → Bool) (b : Buf α), eraseIf p b none = (do let (b', n) ← Buf.eraseIf p b; return (b', some n))) ∧
    (∀ (b : Buf α) (x : α), setInsert b x none = (do let (b', r) ← CxSet.insert b x; return (b', some r))) ∧
    (∀ (b : Buf (κ × ν)) (k : κ) (v : ν), mapPut b k v none = (do let (b', r) ← CxMap.insertOrAssign b k v; return (b', some r))) ∧
    (∀ (c : CxQueue.Cfg α) (q : CxQueue.Queue α) (x : α), queuePush c q x none =
      (do let (q', p) ← CxQueue.push c q x; return (q', false, p))) ∧
    (∀ (c : CxQueue.Cfg α) (q : CxQueue.Queue α), queuePop c q none =
      (do let ((q', x), p) ← CxQueue.pop c q; return (q', some x, p))) := by
  have happ : ∀ {β : Type} (b : Buf β) (x : β), append b x none = (do let b' ← Buf.append b x; return (b', false)) := by
    intro β b x; simp only [append, Buf.append, Option.getD_none]; cases arrSet b.storage b.size x <;> rfl
  refine ⟨happ, ?_, ?_, ?_, ?_, ?_, ?_⟩
  · intro b; simp only [popBack, Buf.popBack]; cases arrGet b.storage (szDec b.size) <;> rfl
  · intro p b
    simp only [eraseIf, Buf.eraseIf]
    cases find p b with
    | ub => rfl
    | panic => rfl
    | ok fo =>
      cases fo with
      | none => rfl
      | some i =>
        simp only [Outcome.ok_bind, Option.getD_none]
        cases arrGet b.storage (szDec b.size) with
        | ub => rfl
        | panic => rfl
        | ok x => simp only [Outcome.ok_bind]; cases arrSet b.storage i x <;> rfl
  · intro b x
    simp only [setInsert, CxSet.insert, happ]
    cases CxSet.contains b x with
    | ub => rfl
    | panic => rfl
    | ok c => cases c <;> simp; cases Buf.append b x <;> rfl
  · intro b k v
    simp only [mapPut, CxMap.insertOrAssign, happ]
    cases find (fun e => e.1 == k) b with
    | ub => rfl
    | panic => rfl
    | ok fo =>
      cases fo with
      | none => simp only [Outcome.ok_bind]; cases Buf.append b (k, v) <;> rfl
      | some i =>
        simp only [Outcome.ok_bind]
        cases arrGet b.storage i with
        | ub => rfl
        | panic => rfl
        | ok e => simp only [Outcome.ok_bind, Option.map_none, Option.getD_none]; cases arrSet b.storage i (e.1, v) <;> rfl
  · intro c q x
    simp only [queuePush, CxQueue.push]
    cases CxQueue.checkPush c q.size with
    | ub => rfl
    | panic => rfl
    | ok p => simp only [Outcome.ok_bind, Option.getD_none]; generalize arrSet q.storage _ x = r; cases r <;> rfl
  · intro c q
    simp only [queuePop, CxQueue.pop]
    cases CxQueue.checkPop c q.size with
    | ub => rfl
    | panic => rfl
    | ok p =>
      simp only [Outcome.ok_bind]
      cases arrGet q.storage q.popIndex with
      | ub => rfl
      | panic => rfl
      | ok x => simp only [Outcome.ok_bind]; cases arrSet q.storage q.popIndex (c.mv x) <;> rfl

/-! ## Vectors -/

/-- Effect on the list: a push that throws leaves behind one more element, a pop that throws loses the last one. -/
def PostV (N : Nat) (l : List α) : VOp α → List α → Option (CxVector.Out α) → Prop
  | .op o, l', r => ∃ r', r = some r' ∧ CxVector.Post N l o l' r'
  | .pushThrows _ y, l', r => l' = l ++ [y] ∧ r = none
  | .popThrows, l', r => (∃ x, l = l' ++ [x]) ∧ r = none

/-- Every operation meets its precondition. -/
def AdmissibleV (N : Nat) : List α → List (VOp α) → Prop
  | _, [] => True
  | l, o :: os => (match o with
      | .op o => CxVector.Pre N l o
      | .pushThrows _ _ => l.length < N
      | .popThrows => l ≠ []) ∧ ∀ l' r, PostV N l o l' r → AdmissibleV N l' os

/-- A possible result of a history. -/
def SpecRunV (N : Nat) : List α → List (VOp α) → List α → List (Option (CxVector.Out α)) → Prop
  | l, [], l', rs => l' = l ∧ rs = []
  | l, o :: os, l', rs => ∃ l1 r rs', PostV N l o l1 r ∧ SpecRunV N l1 os l' rs' ∧ rs = r :: rs'

theorem append_throws {N : Nat} (hN : N < szMod) {b : Buf α} {l : List α} (h : Rep N b l) (hl : l.length < N) (x y : α) :
    ∃ b', append b x (some y) = .ok (b', true) ∧ Rep N b' (l ++ [y]) := by
  obtain ⟨b', e, hr⟩ := h.append hN hl y
  refine ⟨b', ?_, hr⟩
  unfold Buf.append at e
  obtain ⟨st, e1, e2⟩ := Outcome.bind_eq_ok.mp e
  simp at e2
  simp [append, e1, e2]

theorem popBack_throws {N : Nat} {b : Buf α} {l : List α} {x : α} (h : Rep N b (l ++ [x])) :
    ∃ b', popBack b true = .ok (b', none) ∧ Rep N b' l := by
  obtain ⟨b', e, hr⟩ := h.popBack
  refine ⟨b', ?_, hr⟩
  unfold Buf.popBack at e
  obtain ⟨st, e1, e2⟩ := Outcome.bind_eq_ok.mp e
  simp at e2
  simp [popBack, e1, e2.1]

/-- **C117, vectors, partial.** A vector remains a valid sequence whatever throws: in every history in which any pushes and pops throw, the
other operations behave as on a list to which a push that throws adds one element, whatever the assignment left there, and from
which a pop that throws takes the last one; nothing is undefined.  Missing: that an operation that throws changes nothing, see
`C117_vector_violated`. -/
theorem C117_vector_partial {N : Nat} (hN : N < szMod) (ops : List (VOp α)) : ∀ {b : Buf α} {l : List α}, Rep N b l →
    AdmissibleV N l ops → ∃ b' l' rs, runV N b ops = .ok (b', rs) ∧ SpecRunV N l ops l' rs ∧ elems b' = .ok l' ∧ b'.size = l'.length := by
  induction ops with
  | nil => intro b l h _; exact ⟨b, l, [], rfl, ⟨rfl, rfl⟩, h.elems, h.size⟩
  | cons o os ih =>
    intro b l h ha
    cases o with
    | op o =>
      obtain ⟨b1, l1, r, e1, hp, h1⟩ := CxVector.step_refines hN h o ha.1
      obtain ⟨b2, l2, rs, e2, hs, h2⟩ := ih h1 (ha.2 l1 (some r) ⟨r, rfl, hp⟩)
      exact ⟨b2, l2, some r :: rs, by simp [runV, e1, e2], ⟨l1, some r, rs, ⟨r, rfl, hp⟩, hs, rfl⟩, h2⟩
    | pushThrows x y =>
      obtain ⟨b1, e1, h1⟩ := append_throws hN h ha.1 x y
      obtain ⟨b2, l2, rs, e2, hs, h2⟩ := ih h1 (ha.2 _ none ⟨rfl, rfl⟩)
      exact ⟨b2, l2, none :: rs, by simp [runV, e1, e2], ⟨_, none, rs, ⟨rfl, rfl⟩, hs, rfl⟩, h2⟩
    | popThrows =>
      have hl : l = l.dropLast ++ [l.getLast ha.1] := (List.dropLast_concat_getLast ha.1).symm
      rw [hl] at h
      obtain ⟨b1, e1, h1⟩ := popBack_throws h
      obtain ⟨b2, l2, rs, e2, hs, h2⟩ := ih h1 (ha.2 _ none ⟨⟨_, hl⟩, rfl⟩)
      exact ⟨b2, l2, none :: rs, by simp [runV, e1, e2], ⟨_, none, rs, ⟨⟨_, hl⟩, rfl⟩, hs, rfl⟩, h2⟩

example : AdmissibleV 2 [] ([.op (.pushBack 1), .pushThrows 2 0, .op (.index 1), .popThrows] : List (VOp Nat)) := by
  simp only [AdmissibleV, PostV, CxVector.Pre, CxVector.Post]
  grind

example : runV 2 (init 2 0) ([.op (.pushBack 1), .pushThrows 2 0, .op .iterate, .popThrows, .op .iterate] : List (VOp Nat)) =
    .ok (⟨[1, 0], 1⟩, [some (.val 1), none, some (.list [1, 0]), none, some (.list [1])]) := by decide

/-- **C117, vectors (negation).** In every vector that is not full, a `push_back` that throws leaves one more element; in every vector
that is not empty, a `pop_back` that throws loses the last element. -/
theorem C117_vector_violated {N : Nat} (hN : N < szMod) {b : Buf α} {l : List α} (h : Rep N b l) :
    (l.length < N → ∀ x y, ∃ b', append b x (some y) = .ok (b', true) ∧ elems b' = .ok (l ++ [y]) ∧ b'.size = b.size + 1) ∧
    (∀ l0 z, l = l0 ++ [z] → ∃ b', popBack b true = .ok (b', none) ∧ elems b' = .ok l0 ∧ b'.size + 1 = b.size) := by
  constructor
  · intro hl x y
    obtain ⟨b', e, hr⟩ := append_throws hN h hl x y
    exact ⟨b', e, hr.elems, by rw [hr.size, h.size]; simp⟩
  · rintro l0 z rfl
    obtain ⟨b', e, hr⟩ := popBack_throws h
    exact ⟨b', e, hr.elems, by rw [hr.size, h.size]; simp⟩

example : Rep 2 (⟨[5, 0], 1⟩ : Buf Nat) [5] := ⟨rfl, rfl, [0], rfl⟩

/-! ## Sets and maps -/

theorem eraseIf_throws {N : Nat} {b : Buf α} {l0 : List α} {z : α} (h : Rep N b (l0 ++ [z])) {p : α → Bool} {i : Nat}
    (hf : (l0 ++ [z]).findIdx? p = some i) {k : α} (hk : (l0 ++ [z])[i]? = some k) :
    ∃ b', eraseIf p b (some k) = .ok (b', none) ∧ Rep N b' l0 := by
  have hi := (List.findIdx?_eq_some_iff_getElem.mp hf).1
  have hle := h.le
  have hg := h.get (i := l0.length) (by simp)
  have hs := h.set hi k
  have hset : (l0 ++ [z]).set i k = l0 ++ [z] := by
    rw [List.getElem?_eq_getElem hi] at hk
    simp at hk
    rw [← hk]; exact List.set_getElem_self hi
  rw [hset] at hs
  have hsz : szDec b.size = l0.length := by rw [h.size, szDec_of_pos (by simp)]; simp
  refine ⟨⟨b.storage.set i k, l0.length⟩, ?_, ?_⟩
  · simp only [eraseIf, h.find, hf, Outcome.ok_bind, hsz, hg, Option.getD_some, hs.1]; rfl
  · obtain ⟨hc, _, st, he⟩ := hs.2
    exact ⟨hc, rfl, z :: st, by simpa using he⟩

section
variable [DecidableEq α]

/-- **C117, sets (negation), erase.** In every set, for every element: if `erase` throws, and the assignment that throws has no effect, then
what is lost is the last element iterated; the element that was to be erased is lost only if it is that one. -/
theorem C117_set_erase_violated {N : Nat} {b : Buf α} {l0 : List α} {z k : α} (h : Rep N b (l0 ++ [z])) (hk : k ∈ l0 ++ [z]) :
    ∃ b', eraseIf (fun x => x == k) b (some k) = .ok (b', none) ∧ elems b' = .ok l0 := by
  obtain ⟨i, hi⟩ := Option.isSome_iff_exists.mp (show ((l0 ++ [z]).findIdx? (fun x => x == k)).isSome by
    rw [List.findIdx?_isSome, List.any_eq_true]; exact ⟨k, hk, by simp⟩)
  obtain ⟨hl, hp, _⟩ := List.findIdx?_eq_some_iff_getElem.mp hi
  simp at hp
  obtain ⟨b', e, hr⟩ := eraseIf_throws h hi (k := k) (by rw [List.getElem?_eq_getElem hl]; simp [hp])
  exact ⟨b', e, hr.elems⟩

example : eraseIf (fun x => x == 1) (⟨[1, 2, 3], 3⟩ : Buf Nat) (some 1) = .ok (⟨[1, 2, 3], 2⟩, none) := by decide

/-- **C117, sets (negation), insert.** In every set: after an element other than the last is erased, an `insert` that throws, even if
the assignment that throws has no effect, leaves an element in the set twice: the size is that before the erasure, and
the element is still there after it is erased. -/
theorem C117_set_insert_violated {N : Nat} {b : Buf α} {l0 : List α} {z k x : α} (hN : N < szMod) (h : Rep N b (l0 ++ [z]))
    (hn : (l0 ++ [z]).Nodup) (hk : k ∈ l0) (hx : x ∉ l0 ++ [z]) :
    ∃ b1 b2 b3, CxSet.erase b k = .ok (b1, 1) ∧ arrGet b1.storage b1.size = .ok z ∧
      setInsert b1 x (some z) = .ok (b2, none) ∧ b2.size = b.size ∧
      CxSet.erase b2 z = .ok (b3, 1) ∧ CxSet.contains b3 z = .ok true := by
  have hkz : k ≠ z := by
    rintro rfl
    exact (List.nodup_append.mp hn).2.2 k hk k (by simp) rfl
  have hle := h.le
  simp at hle
  obtain ⟨b1, l1, e1, hr1, hn1, hm1, hlen1⟩ := CxSet.erase_rep h hn k
  have hkm : k ∈ l0 ++ [z] := by simp [hk]
  rw [if_pos hkm] at e1 hlen1
  have hst : arrGet b1.storage b1.size = .ok z := by
    obtain ⟨i, hi⟩ := Option.isSome_iff_exists.mp (show ((l0 ++ [z]).findIdx? (fun x => x == k)).isSome by
      rw [List.findIdx?_isSome, List.any_eq_true]; exact ⟨k, hkm, by simp⟩)
    obtain ⟨hl, hp, _⟩ := List.findIdx?_eq_some_iff_getElem.mp hi
    simp at hp
    have hil : i ≠ l0.length := by
      rintro rfl
      simp at hp; exact hkz hp.symm
    have hg := h.get (i := l0.length) (by simp)
    simp at hg
    have hsz : szDec b.size = l0.length := by rw [h.size, szDec_of_pos (by simp)]; simp
    have hc := h.cap
    simp only [CxSet.erase, Buf.eraseIf, h.find, hi, Outcome.ok_bind, hsz, hg] at e1
    rw [arrSet_of_lt (by simp at hl; omega)] at e1
    simp at e1
    rw [← e1, arrGet_ok]
    simp only [List.getElem?_set]
    rw [if_neg hil]
    exact arrGet_ok.mp hg
  have hxl : x ∉ l1 := by rw [hm1]; exact fun hh => hx hh.2
  have hzl : z ∈ l1 := by rw [hm1]; exact ⟨Ne.symm hkz, by simp⟩
  have hl1 : l1.length = l0.length := by simp at hlen1; omega
  obtain ⟨b2, e2, hr2⟩ := append_throws hN hr1 (by omega) x z
  have e2' : setInsert b1 x (some z) = .ok (b2, none) := by
    simp only [setInsert, CxSet.contains_rep hr1, hxl, Outcome.ok_bind, e2]
    simp
  obtain ⟨i, hi, ei⟩ := List.mem_iff_getElem.mp hzl
  obtain ⟨b3, e3, _, n, e4⟩ := Refs.erase_twice hr2 (p := fun y => y == z) (i := i) (j := l1.length) hi (by simp)
    (by simp [List.getElem_append_left hi, ei]) (by simp)
  exact ⟨b1, b2, b3, e1, hst, e2', by rw [hr2.size, h.size]; simp [hl1], e3, by simp [CxSet.contains, e4]⟩

example : Rep 3 (⟨[1, 2, 3], 3⟩ : Buf Nat) ([1, 2] ++ [3]) ∧ ([1, 2] ++ [3] : List Nat).Nodup ∧ 4 ∉ ([1, 2] ++ [3] : List Nat) :=
  ⟨⟨rfl, rfl, [], rfl⟩, by decide, by decide⟩

end

section
variable [DecidableEq κ]

/-- **C117, maps, partial.** If assigning a new value to a key throws, the keys and all other values are as before, and the value of
the key is what the assignment left.  Missing: new keys and `erase`, see `C117_map_violated`. -/
theorem C117_map_assign_partial {N : Nat} {b : Buf (κ × ν)} {m : CxMap.Abs κ ν} (h : CxMap.MRep N b m) {k : κ} (hk : m.fn k ≠ none)
    (v : ν) (y : κ × ν) :
    ∃ b', mapPut b k v (some y) = .ok (b', none) ∧ CxMap.get b' k = .ok y.2 ∧ b'.size = b.size ∧
      ∀ k', k' ≠ k → CxMap.get b' k' = CxMap.get b k' ∧ CxMap.contains b' k' = CxMap.contains b k' := by
  obtain ⟨b', e, _, hb⟩ := CxMap.assign_rep h k y.2 hk
  have hg := CxMap.get_rep hb
  have hc := CxMap.contains_rep hb
  refine ⟨b', ?_, by rw [hg]; simp [CxMap.upd], ?_, ?_⟩
  · unfold CxMap.assignGet at e
    obtain ⟨fo, ef, e3⟩ := Outcome.bind_eq_ok.mp e
    cases fo with
    | none => simp at e3
    | some f =>
      simp only at e3
      obtain ⟨e0, e4, e5⟩ := Outcome.bind_eq_ok.mp e3
      obtain ⟨st, e6, e7⟩ := Outcome.bind_eq_ok.mp e5
      simp at e7
      simp [mapPut, ef, e4, e6, e7]
  · obtain ⟨l, hr, _, _, hc⟩ := h
    obtain ⟨l', hr', _, _, hc'⟩ := hb
    rw [hr.size, hr'.size, ← hc, ← hc']
  · intro k' hne
    rw [hg, hc, CxMap.get_rep h, CxMap.contains_rep h]
    simp [CxMap.upd, hne]

/-- **C117, maps (negation).** In every map that is not full, an insertion of a new key that throws leaves one more element, with whatever
key the assignment left; and if `erase` throws, and the assignment that throws has no effect, the last pair iterated is lost. -/
theorem C117_map_violated {N : Nat} (hN : N < szMod) {b : Buf (κ × ν)} {l : List (κ × ν)} (h : Rep N b l) :
    (∀ k v y, l.length < N → k ∉ l.map Prod.fst → ∃ b', mapPut b k v (some y) = .ok (b', none) ∧ elems b' = .ok (l ++ [y])) ∧
    (∀ l0 z k, l = l0 ++ [z] → k ∈ l.map Prod.fst → ∃ e b', e ∈ l ∧ e.1 = k ∧
      eraseIf (fun e => e.1 == k) b (some e) = .ok (b', none) ∧ elems b' = .ok l0) := by
  constructor
  · intro k v y hl hk
    obtain ⟨b', e, hr⟩ := append_throws hN h hl (k, v) y
    have hf : find (fun e => e.1 == k) b = .ok none := by
      rw [h.find, CxMap.find_none (by rintro ⟨w, hw⟩; exact hk (List.mem_map.mpr ⟨_, hw, rfl⟩))]
    exact ⟨b', by simp [mapPut, hf, e], hr.elems⟩
  · rintro l0 z k rfl hk
    obtain ⟨e0, he0, hek⟩ := List.mem_map.mp hk
    obtain ⟨i, hi⟩ := Option.isSome_iff_exists.mp (show ((l0 ++ [z]).findIdx? (fun e : κ × ν => e.1 == k)).isSome by
      rw [List.findIdx?_isSome, List.any_eq_true]; exact ⟨e0, he0, by simp [hek]⟩)
    obtain ⟨hl, hp, _⟩ := List.findIdx?_eq_some_iff_getElem.mp hi
    obtain ⟨b', e, hr⟩ := eraseIf_throws h hi (List.getElem?_eq_getElem hl)
    exact ⟨_, b', List.getElem_mem hl, by simpa using hp, e, hr.elems⟩

example : mapPut (⟨[(1, 5), (1, 5)], 1⟩ : Buf (Nat × Nat)) 2 6 (some (1, 5)) = .ok (⟨[(1, 5), (1, 5)], 2⟩, none) := by decide

end

/-! ## Queues -/

/-- **C117, queues, partial.** A `push` that throws leaves the queue as after the push of what the assignment left; so the queue is still
a queue.  Missing: that nothing is changed, and `pop`, see `C117_queue_pop_violated`. -/
theorem C117_queue_push_partial {c : CxQueue.Cfg α} {q : CxQueue.Queue α} {l : List α} (hN : c.N < szMod) (h : CxQueue.Rep c.N q l)
    (hl : l.length < c.N) (x y : α) :
    ∃ q', queuePush c q x (some y) = .ok (q', true, 0) ∧ CxQueue.push c q y = .ok (q', 0) ∧ CxQueue.Rep c.N q' (l ++ [y]) := by
  obtain ⟨q', e, hr⟩ := CxQueue.rep_push hN h hl y
  refine ⟨q', ?_, e, hr⟩
  unfold CxQueue.push at e
  obtain ⟨p, e1, e2⟩ := Outcome.bind_eq_ok.mp e
  obtain ⟨st, e3, e4⟩ := Outcome.bind_eq_ok.mp e2
  simp at e4
  simp only [queuePush, e1, Outcome.ok_bind, Option.getD_some, e3]
  simp [e4.1, e4.2]

/-- **C117, queues (negation).** In every queue that is not empty, a `pop` that throws keeps the size and moves on: if the oldest element
is in the last slot of the array, everything that then looks at the front is undefined; otherwise the front is the second element,
if there is one, while the size still counts the first. -/
theorem C117_queue_pop_violated {c : CxQueue.Cfg α} {q : CxQueue.Queue α} {x : α} {l : List α} (hN : c.N < szMod)
    (h : CxQueue.Rep c.N q (x :: l)) (y : α) :
    ∃ q', queuePop c q (some y) = .ok (q', none, 0) ∧ q'.size = l.length + 1 ∧
      (q.popIndex + 1 = c.N → CxQueue.front c q' = .ub ∧ CxQueue.pop c q' = .ub ∧ ∀ z, CxQueue.setFront c q' z = .ub) ∧
      (q.popIndex + 1 < c.N → ∀ z l', l = z :: l' → CxQueue.front c q' = .ok (z, 0)) := by
  have hle := h.le
  simp at hle
  have hp := h.popLt (by omega)
  have hlen := h.len
  have hsz := h.size
  simp at hsz
  have hck : ∀ n, n = l.length + 1 → CxQueue.checkPop c n = .ok 0 := fun n hn => CxQueue.checkPop_ok (by omega)
  refine ⟨{ q with storage := q.storage.set q.popIndex y, popIndex := q.popIndex + 1 }, ?_, hsz, ?_, ?_⟩
  · simp only [queuePop, hck _ hsz, Outcome.ok_bind, CxQueue.rep_front h]
    rw [arrSet_of_lt (by omega), szInc_of_lt hp hN]
    rfl
  · intro hlast
    have hg : arrGet (q.storage.set q.popIndex y) (q.popIndex + 1) = .ub := by
      have : (q.storage.set q.popIndex y)[q.popIndex + 1]? = none := by simp; omega
      simp [arrGet, this]
    refine ⟨?_, ?_, ?_⟩
    · simp only [CxQueue.front, hck _ hsz, Outcome.ok_bind, hg]; rfl
    · simp only [CxQueue.pop, hck _ hsz, Outcome.ok_bind, hg]; rfl
    · intro z
      have : arrSet (q.storage.set q.popIndex y) (q.popIndex + 1) z = .ub := by
        unfold arrSet; rw [if_neg (by simp; omega)]
      simp only [CxQueue.setFront, hck _ hsz, Outcome.ok_bind, this]; rfl
  · rintro hlt z l' rfl
    have := h.cont 1 (by simp)
    rw [if_pos hlt] at this
    have hg : arrGet (q.storage.set q.popIndex y) (q.popIndex + 1) = .ok z := by
      rw [arrGet_ok]; simp only [List.getElem?_set]; rw [if_neg (by omega), this]; simp
    simp only [CxQueue.front, hck _ hsz, Outcome.ok_bind, hg]; rfl

theorem queue_rounds {c : CxQueue.Cfg α} (hN : c.N < szMod) (d x : α) (n : Nat) (hn : n < c.N) :
    ∃ q rs, CxQueue.run c (CxQueue.init c.N d) (List.replicate n [CxQueue.Op.push x, CxQueue.Op.pop]).flatten = .ok (q, rs, 0) ∧
      CxQueue.Rep c.N q [] ∧ q.popIndex = n := by
  have happ : ∀ (os : List (CxQueue.Op α)) (q q1 : CxQueue.Queue α) (rs : List (CxQueue.Out α)) (os' : List (CxQueue.Op α))
      (q2 : CxQueue.Queue α) (rs' : List (CxQueue.Out α)), CxQueue.run c q os = .ok (q1, rs, 0) → CxQueue.run c q1 os' = .ok (q2, rs', 0) →
      CxQueue.run c q (os ++ os') = .ok (q2, rs ++ rs', 0) := by
    intro os
    induction os with
    | nil => intro q q1 rs os' q2 rs' e e'; simp [CxQueue.run] at e; obtain ⟨rfl, rfl⟩ := e; simpa using e'
    | cons o os ih =>
      intro q q1 rs os' q2 rs' e e'
      simp only [CxQueue.run, List.cons_append] at e ⊢
      obtain ⟨⟨qa, r, p⟩, e1, e2⟩ := Outcome.bind_eq_ok.mp e
      obtain ⟨⟨qb, rs1, p1⟩, e3, e4⟩ := Outcome.bind_eq_ok.mp e2
      simp at e4
      obtain ⟨rfl, rfl, rfl, rfl⟩ := e4
      simp [e1, ih _ _ _ _ _ _ e3 e']
  induction n with
  | zero => exact ⟨_, [], rfl, CxQueue.rep_init c.N d, rfl⟩
  | succ n ih =>
    obtain ⟨q, rs, e, hr, hp⟩ := ih (by omega)
    obtain ⟨q1, e1, hr1⟩ := CxQueue.rep_push hN hr (by simp; omega) x
    have hpi : q1.popIndex = q.popIndex := by
      unfold CxQueue.push at e1
      obtain ⟨p, _, e2⟩ := Outcome.bind_eq_ok.mp e1
      obtain ⟨st, _, e4⟩ := Outcome.bind_eq_ok.mp e2
      simp at e4; rw [← e4.1]
    obtain ⟨q2, e2, hr2⟩ := CxQueue.rep_pop hN hr1
    have hpi2 : q2.popIndex = n + 1 := by
      unfold CxQueue.pop at e2
      obtain ⟨p, _, e3⟩ := Outcome.bind_eq_ok.mp e2
      obtain ⟨z, _, e4⟩ := Outcome.bind_eq_ok.mp e3
      obtain ⟨st, _, e5⟩ := Outcome.bind_eq_ok.mp e4
      simp at e5
      rw [← e5.1.1]
      simp only [hpi, hp]
      rw [szInc_of_lt (n := c.N) (by omega) hN, if_neg (by omega)]
    refine ⟨q2, rs ++ [.val x, .val x], ?_, hr2, hpi2⟩
    rw [List.replicate_succ', List.flatten_append]
    refine happ _ _ _ _ _ _ _ e ?_
    simp [CxQueue.run, CxQueue.step, e1, e2]

/-- **C117, queues (negation), reachable.** For every capacity: after the queue has been filled and emptied one element at a time until
the end of its array is reached, a `pop` that throws makes `front()` undefined, under either policy and with any panic handler. -/
theorem C117_queue_pop_reachable_violated (c : CxQueue.Cfg α) (hN : c.N < szMod) (h0 : 0 < c.N) (d x y : α) :
    ∃ q rs q', CxQueue.run c (CxQueue.init c.N d) ((List.replicate (c.N - 1) [CxQueue.Op.push x, CxQueue.Op.pop]).flatten) = .ok (q, rs, 0) ∧
      CxQueue.push c q x = .ok (q', 0) ∧ ∃ q'', queuePop c q' (some y) = .ok (q'', none, 0) ∧ CxQueue.front c q'' = .ub := by
  obtain ⟨q, rs, e, hr, hp⟩ := queue_rounds hN d x (c.N - 1) (by omega)
  obtain ⟨q1, e1, hr1⟩ := CxQueue.rep_push hN hr (by simpa using h0) x
  have hpi : q1.popIndex = q.popIndex := by
    unfold CxQueue.push at e1
    obtain ⟨p, _, e2⟩ := Outcome.bind_eq_ok.mp e1
    obtain ⟨st, _, e4⟩ := Outcome.bind_eq_ok.mp e2
    simp at e4; rw [← e4.1]
  obtain ⟨q2, e2, _, hlast, _⟩ := C117_queue_pop_violated hN hr1 y
  exact ⟨q, rs, q1, e, e1, q2, e2, (hlast (by omega)).1⟩

example : (CxQueue.front ⟨1, .safe, .noreturn, id⟩ (⟨[3], 0, 1, 1⟩ : CxQueue.Queue Nat)) = .ub := by decide

end Verif.Throw
