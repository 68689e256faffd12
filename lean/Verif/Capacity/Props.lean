import Verif.Capacity.Spec
import Verif.CxVector.Props
import Verif.CxQueue.Props
import Verif.CxMultimap.Props
import Verif.Span.Model

/-! # C128: the capacity of a type known at compile time -/

namespace Verif.Capacity

/-! ## Which types have one -/

theorem dynamic_iff {w n : Nat} : n = dynamicExtent w ↔ n + 1 = 2 ^ w := by
  have := Nat.two_pow_pos w
  unfold dynamicExtent
  omega

/-- Unqualified types. -/
theorem plain (w : Nat) (s : Shape) : ctCapacityV w ⟨s, false, false, false⟩ = s.capacity w := by
  rw [ctCapacityV]
  cases s <;> simp [choose, Sp.all, Sp.isMatch, Sp.more, Shape.param, Shape.capacity, List.filter,
    ← dynamic_iff]
  all_goals
    rename_i n
    by_cases h : n = dynamicExtent w <;> simp [h]

/-- `ct_capacity(x)` is the capacity of the type of `x`, whether const, volatile, an lvalue or not, and is
rejected if that has none: every type that is no array, fixed-extent span or one of the five containers. -/
theorem C128_ct_capacity (w : Nat) (t : Ty) : ctCapacity w t = t.shape.capacity w := plain w _

/-- `ct_capacity_v<T>` is the same for a non-reference type that is not volatile, and if const is not an
array. -/
theorem C128_ct_capacity_v_partial (w : Nat) (t : Ty) (hr : t.ref = false) (hv : t.volatile = false)
    (hc : t.const = true → ∀ n, t.shape ≠ .cArray n) : ctCapacityV w t = t.shape.capacity w := by
  obtain ⟨s, c, v, r⟩ := t
  subst hr hv
  cases c with
  | false => exact plain w s
  | true =>
    rw [ctCapacityV]
    have : choose w ⟨s, true, false, false⟩ = some (some .const) := by
      cases s <;> simp [choose, Sp.all, Sp.isMatch, Sp.more, List.filter] at hc ⊢
    simp [this, plain]

/-- All the arguments for which `ct_capacity_v<T>` is not the capacity of the type: references, const
arrays (their specialisations for arrays and for const types both match, and neither is more specialised),
and volatile types other than arrays, if those have a capacity. -/
theorem C128_ct_capacity_v_iff (w : Nat) (t : Ty) (h : t.shape ≠ .other) :
    ctCapacityV w t = t.shape.capacity w ↔
      t.shape.capacity w = none ∨
      (t.ref = false ∧ ((∃ n, t.shape = .cArray n) → t.const = false) ∧
        ((∀ n, t.shape ≠ .cArray n) → t.volatile = false)) := by
  obtain ⟨s, c, v, r⟩ := t
  cases s with
  | other => simp at h
  | stdSpan n | span n =>
    by_cases hd : n = dynamicExtent w <;> cases r <;> cases c <;> cases v <;>
      simp [ctCapacityV, choose, Sp.all, Sp.isMatch, Sp.more, List.filter, Shape.param,
        Shape.capacity, ← dynamic_iff, hd]
  | _ =>
    cases r <;> cases c <;> cases v <;>
      simp [ctCapacityV, choose, Sp.all, Sp.isMatch, Sp.more, List.filter, Shape.param,
        Shape.capacity]

/-- A const array has a capacity, which `ct_capacity_v` does not give. -/
theorem C128_const_array_violated (w n : Nat) (v : Bool) :
    ctCapacityV w ⟨.cArray n, true, v, false⟩ = none ∧
      ctCapacity w ⟨.cArray n, true, v, false⟩ = some n := by
  refine ⟨?_, C128_ct_capacity _ _⟩
  rw [ctCapacityV]
  simp [choose, Sp.all, Sp.isMatch, Sp.more, List.filter]

example : ctCapacity 64 ⟨.cxMultimap 3 7, true, true, true⟩ = some 3 ∧
    ctCapacity 64 ⟨.stdSpan (2 ^ 64 - 1), false, false, false⟩ = none ∧
    ctCapacity 64 ⟨.stdSpan (2 ^ 64 - 2), false, false, false⟩ = some (2 ^ 64 - 2) ∧
    ctCapacityV 64 ⟨.cArray 3, false, true, false⟩ = some 3 ∧
    ctCapacityV 64 ⟨.cxSet 3, true, false, false⟩ = some 3 ∧
    ctCapacityV 64 ⟨.cxSet 3, false, true, false⟩ = none := by
  refine ⟨by rw [C128_ct_capacity]; rfl, by rw [C128_ct_capacity]; rfl,
    by rw [C128_ct_capacity]; rfl, ?_, ?_, ?_⟩ <;>
    simp [ctCapacityV, choose, Sp.all, Sp.isMatch, Sp.more, List.filter, Shape.param]

/-! ## It is the room there is -/

variable {σ β : Type}

theorem insertAll_iff {ins : σ → β → Option σ} {n : Nat} (R : σ → List β → Prop)
    (hle : ∀ s l, R s l → l.length ≤ n)
    (room : ∀ s l x, R s l → l.length < n → x ∉ l → ∃ s', ins s x = some s' ∧ R s' (l ++ [x]))
    (full : ∀ s l x, R s l → l.length = n → x ∉ l → ins s x = none) (xs : List β) :
    ∀ s l, R s l → (l ++ xs).Nodup →
      ((insertAll ins s xs).isSome = true ↔ l.length + xs.length ≤ n) := by
  induction xs with
  | nil => intro s l h _; simpa [insertAll] using hle s l h
  | cons x xs ih =>
    intro s l h hn
    have hx : x ∉ l := fun hm => by
      rw [List.nodup_append] at hn
      exact hn.2.2 x hm x (by simp) rfl
    by_cases hl : l.length < n
    · obtain ⟨s', e, h'⟩ := room s l x h hl hx
      have := ih s' (l ++ [x]) h' (by simpa using hn)
      simp only [insertAll, e, Option.bind_some, this]
      simp only [List.length_append, List.length_cons, List.length_nil]
      omega
    · have hl' : l.length = n := by have := hle s l h; omega
      simp only [insertAll, full s l x h hl' hx, Option.bind_none, Option.isSome_none,
        List.length_cons]
      simp only [Bool.false_eq_true, false_iff]
      omega

theorem roomFor {ins : σ → β → Option σ} {n : Nat} (R : σ → List β → Prop) {e : σ} (h0 : R e [])
    (hle : ∀ s l, R s l → l.length ≤ n)
    (room : ∀ s l x, R s l → l.length < n → x ∉ l → ∃ s', ins s x = some s' ∧ R s' (l ++ [x]))
    (full : ∀ s l x, R s l → l.length = n → x ∉ l → ins s x = none) : RoomFor ins e n := by
  intro xs hx
  simpa using insertAll_iff R hle room full xs e [] h0 (by simpa using hx)

/-- The state after an operation that has a defined outcome. -/
def done {σ ρ : Type} : Outcome (σ × ρ) → Option σ
  | .ok p => some p.1
  | _ => none

/-- `push_back` on a `cx_vector<T, N>`. -/
theorem C128_cx_vector {α : Type} (w N : Nat) (hN : N < szMod) (d : α) (t : Ty)
    (ht : t.shape = .cxVector N) (n : Nat) (hc : ctCapacity w t = some n) :
    RoomFor (fun b (x : α) => done (CxVector.step N b (.pushBack x))) (Buf.init N d) n := by
  rw [C128_ct_capacity, ht] at hc
  obtain rfl : N = n := by simpa [Shape.capacity] using hc
  refine roomFor (Buf.Rep N) (Buf.Rep.init N d) (fun _ _ h => h.le) ?_ ?_
  · intro s l x h hl _
    obtain ⟨b', e, h'⟩ := h.append hN hl x
    exact ⟨b', by simp [CxVector.step, e, done], h'⟩
  · intro s l x h hl _
    simp [CxVector.step, h.append_ub hl, done]

/-- `insert` on a `cx_set<T, N>`. -/
theorem C128_cx_set {α : Type} [DecidableEq α] (w N : Nat) (hN : N < szMod) (d : α) (t : Ty)
    (ht : t.shape = .cxSet N) (n : Nat) (hc : ctCapacity w t = some n) :
    RoomFor (fun b (x : α) => done (CxSet.step b (.insert x))) (Buf.init N d) n := by
  rw [C128_ct_capacity, ht] at hc
  obtain rfl : N = n := by simpa [Shape.capacity] using hc
  refine roomFor (Buf.Rep N) (Buf.Rep.init N d) (fun _ _ h => h.le) ?_ ?_
  · intro s l x h hl hx
    obtain ⟨b', l', e, h', rfl⟩ := CxSet.insert_rep hN h x (.inr hl)
    exact ⟨b', by simp [CxSet.step, e, done], by simpa [hx] using h'⟩
  · intro s l x h hl hx
    simp [CxSet.step, CxSet.insert, CxSet.contains_rep h, hx, h.append_ub hl, done]

/-- `put` of different keys on a `cx_map<K, V, N>`, whatever the values. -/
theorem C128_cx_map {κ ν : Type} [DecidableEq κ] (w N : Nat) (hN : N < szMod) (d : κ × ν)
    (f : κ → ν) (t : Ty) (ht : t.shape = .cxMap N) (n : Nat) (hc : ctCapacity w t = some n) :
    RoomFor (fun b (k : κ) => done (CxMap.step N b (.put k (f k)))) (Buf.init N d) n := by
  rw [C128_ct_capacity, ht] at hc
  obtain rfl : N = n := by simpa [Shape.capacity] using hc
  refine roomFor (fun b l => ∃ m, CxMap.MRep N b m ∧ m.card = l.length ∧
    ∀ k, m.fn k ≠ none ↔ k ∈ l) ⟨_, CxMap.mrep_init N d, rfl, by simp [CxMap.Abs.empty]⟩ ?_ ?_ ?_
  · rintro s l ⟨m, ⟨l', h, _, _, hc'⟩, hm, _⟩
    have := h.le
    omega
  · rintro s l x ⟨m, h, hm, hk⟩ hl hx
    have hx' : m.fn x = none :=
      Decidable.byContradiction fun hne => hx ((hk x).mp hne)
    obtain ⟨b', e, h'⟩ := CxMap.insert_rep hN h x (f x) hx' (by omega)
    refine ⟨b', by simp [CxMap.step, e, done], _, h', by simp [hm], fun k => ?_⟩
    by_cases hkx : k = x
    · simp [CxMap.upd, hkx]
    · simp [CxMap.upd, hkx, hk]
  · rintro s l x ⟨m, h, hm, hk⟩ hl hx
    have := (CxMap.C28_cx_map_ub_iff N hN s m h (.put x (f x))).mpr (by
      simp only [CxMap.Pre, not_or]
      exact ⟨fun hne => hx ((hk x).mp hne), by omega⟩)
    simp [this, done]

/-- `insert` of different keys on a `cx_multimap<K, V, N, M>`, whatever the values. -/
theorem C128_cx_multimap {κ ν : Type} [DecidableEq κ] [DecidableEq ν] (w : Nat)
    (c : CxMultimap.Cfg ν) (hN : c.KeyN < szMod) (hM : c.ValueN < szMod) (hpos : 0 < c.ValueN)
    (d : κ × Buf.Buf ν) (f : κ → ν) (t : Ty) (ht : t.shape = .cxMultimap c.KeyN c.ValueN) (n : Nat)
    (hc : ctCapacity w t = some n) :
    RoomFor (fun b (k : κ) => done (CxMultimap.step c b (.insert k (f k)))) (Buf.init c.KeyN d) n := by
  rw [C128_ct_capacity, ht] at hc
  obtain rfl : c.KeyN = n := by simpa [Shape.capacity] using hc
  refine roomFor (fun b l => ∃ a, CxMultimap.MMRep c b a ∧ a.card = l.length ∧
    ∀ k, a.fn k ≠ none ↔ k ∈ l)
    ⟨_, CxMultimap.mmrep_init c d, rfl, by simp [CxMultimap.Abs.empty]⟩ ?_ ?_ ?_
  · rintro s l ⟨a, ⟨m, ⟨l', h, _, _, hc'⟩, ha, _⟩, hm, _⟩
    have := h.le
    omega
  · rintro s l x ⟨a, h, hm, hk⟩ hl hx
    have hx' : a.fn x = none :=
      Decidable.byContradiction fun hne => hx ((hk x).mp hne)
    obtain ⟨b', a', r, e, ⟨hs, hr, s', hs', _, hnew⟩, h'⟩ :=
      CxMultimap.step_refines hN hM hpos h (.insert x (f x))
        ⟨fun s h => (by rw [hx'] at h; simp at h), fun _ => by omega⟩ trivial
    refine ⟨b', by simp [e, done], a', h', by simp [(hnew hx').2, hm], fun k => ?_⟩
    by_cases hkx : k = x
    · subst hkx
      simp [hs']
    · rw [hs k hkx, hk]
      simp [hkx]
  · rintro s l x ⟨a, h, hm, hk⟩ hl hx
    have hx' : a.fn x = none :=
      Decidable.byContradiction fun hne => hx ((hk x).mp hne)
    have := (CxMultimap.C31_cx_multimap_ub_iff c hN hM hpos s a h (.insert x (f x))).mpr (by
      intro hp
      have := hp.2 hx'
      omega)
    simp [this, done]

/-- The state after a queue operation that did not panic. -/
def calm {σ ρ : Type} : Outcome (σ × ρ × Nat) → Option σ
  | .ok (s, _, 0) => some s
  | _ => none

/-- `push` on a `cx_queue<T, N>` whose overflow policy is to panic, whatever the panic handler does. -/
theorem C128_cx_queue {α : Type} (w : Nat) (c : CxQueue.Cfg α) (hN : c.N < szMod)
    (hp : c.policy = .safe) (d : α) (t : Ty) (ht : t.shape = .cxQueue c.N) (n : Nat)
    (hc : ctCapacity w t = some n) :
    RoomFor (fun q (x : α) => calm (CxQueue.step c q (.push x))) (CxQueue.init c.N d) n := by
  rw [C128_ct_capacity, ht] at hc
  obtain rfl : c.N = n := by simpa [Shape.capacity] using hc
  refine roomFor (CxQueue.Rep c.N) (CxQueue.rep_init c.N d) (fun _ _ h => h.le) ?_ ?_
  · intro s l x h hl _
    obtain ⟨b', e, h'⟩ := CxQueue.rep_push hN h hl x
    exact ⟨b', by simp [CxQueue.step, e, calm], h'⟩
  · intro s l x h hl _
    have hsz : c.N ≤ s.size := by rw [h.size]; omega
    have hck : CxQueue.checkPush c s.size = .ok 1 ∨ CxQueue.checkPush c s.size = .panic := by
      cases hh : c.handler <;> simp [CxQueue.checkPush, CxQueue.raise, hp, hh, hsz]
    rcases hck with hck | hck <;> simp only [CxQueue.step, CxQueue.push, hck]
    · simp only [Outcome.ok_bind]
      generalize arrSet s.storage _ _ = o
      cases o <;> simp [calm]
    · simp [calm]

/-- The size of a span of fixed extent. -/
theorem C128_span (s : Span.Span) (t : Ty) (ht : t.shape = .span s.ext) :
    ctCapacity 64 t = if s.ext = Span.dynamicExtent then none else some (Span.size s) := by
  rw [C128_ct_capacity, ht]
  have h : s.ext + 1 = 2 ^ 64 ↔ s.ext = Span.dynamicExtent := by
    show _ ↔ s.ext = 18446744073709551615
    omega
  by_cases hd : s.ext = Span.dynamicExtent
  · rw [if_pos hd, Shape.capacity, if_pos (h.mpr hd)]
  · simp only [Shape.capacity, Span.size, hd, if_false, if_neg (fun e => hd (h.mp e))]

example : ctCapacity 64 ⟨.cxVector 2, false, false, false⟩ = some 2 ∧
    (insertAll (fun b x => done (CxVector.step 2 b (.pushBack x))) (Buf.init 2 0) [5, 6]).isSome ∧
    insertAll (fun b x => done (CxVector.step 2 b (.pushBack x))) (Buf.init 2 0) [5, 6, 7] = none := by
  refine ⟨by rw [C128_ct_capacity]; rfl, by decide, by decide⟩

end Verif.Capacity
