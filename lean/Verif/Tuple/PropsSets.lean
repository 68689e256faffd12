import Verif.Tuple.Sets
import Verif.Tuple.PropsBuild
import Verif.Tuple.PropsChunk

/-! # Sorting and sets: what becomes of the elements (C68, C101) -/

namespace Verif.TupleBuild

open TupleAccess

/-- The object an element was made from. -/
def Made.place : Made → Nat
  | .copied p | .moved p | .bound p | .pointer p => p

theorem Kept.place {k : Cat} {e : Elem} {n : Ty × Made} (h : Kept k e n) : n.2.place = e.place := by
  obtain ⟨_, h⟩ := h
  split at h
  · rw [h]; split <;> rfl
  · rw [h]; rfl

theorem places {k : Cat} {es : List Elem} {ns : List (Ty × Made)} (h : List.Forall₂ (Kept k) es ns) :
    ns.map (·.2.place) = es.map (·.place) := by
  induction h with
  | nil => rfl
  | cons h _ ih => rw [List.map_cons, List.map_cons, ih, Kept.place h]

theorem mapM_some {α β : Type} (f : α → Option β) (l : List α) (h : ∀ x ∈ l, ∃ y, f x = some y) :
    ∃ r, l.mapM f = some r ∧ List.Forall₂ (fun x y => f x = some y) l r := by
  induction l with
  | nil => exact ⟨[], rfl, .nil⟩
  | cons x l ih =>
    obtain ⟨y, hy⟩ := h x List.mem_cons_self
    obtain ⟨r, hr, hf⟩ := ih fun z hz => h z (List.mem_cons_of_mem _ hz)
    exact ⟨y :: r, by rw [List.mapM_cons, hy, hr]; rfl, .cons hy hf⟩

/-- **C101, sorting and grouping.** `sort` and the groups of `chunk_by` and `gather_by` take the elements at their indices: the types stay, references refer
to the same objects, values are moved from an rvalue tuple and copied otherwise; and as long as no index comes twice, every
object is taken once. -/
theorem C101_pick (L : Lang) (k : Cat) (t : Tup) (ht : t.tmpl = .tuple ∨ t.tmpl = .indexed) (h : ∀ e ∈ t.elems, Movable L k e)
    (idx : List Nat) (hi : ∀ i ∈ idx, i < t.elems.length) :
    ∃ es ns, List.Forall₂ (fun i e => t.elems[i]? = some e) idx es ∧ pick L k t idx = .ok ⟨.tuple, [], ns⟩ ∧
      List.Forall₂ (Kept k) es ns ∧
      (idx.Nodup → (t.elems.map (·.place)).Nodup → (ns.map (·.2.place)).Nodup) := by
  have hl : t.tuplelike = true := by rcases ht with e | e <;> simp [Tup.tuplelike, e]
  obtain ⟨es, he, hf⟩ := mapM_some (t.elems[·]?) idx fun i h => ⟨_, List.getElem?_eq_getElem (hi i h)⟩
  have hmem : ∀ e ∈ es, e ∈ t.elems := by
    intro e hm
    obtain ⟨j, hj, rfl⟩ := List.getElem_of_mem hm
    have hie := (List.forall₂_iff_get.mp hf).2 j ((List.forall₂_iff_get.mp hf).1 ▸ hj) hj
    exact List.mem_of_getElem? hie
  obtain ⟨ns, e1, e2⟩ := build_elems L k t.tmpl es fun e hm => h e (hmem e hm)
  refine ⟨es, ns, hf, ?_, e2, ?_⟩
  · simp only [pick, hl, if_true, he]
    exact make_ok L (by simp only [instantiate, types_elems]; rfl) e1
  · intro hn hp
    rw [places e2]
    clear e1 e2 he hmem hi
    induction hf with
    | nil => exact .nil
    | @cons i e is es hie hf ih =>
      rw [List.nodup_cons] at hn
      rw [List.map_cons, List.nodup_cons]
      refine ⟨?_, ih hn.2⟩
      intro hm
      obtain ⟨e', he', hpl⟩ := List.mem_map.mp hm
      obtain ⟨j, hj, rfl⟩ := List.getElem_of_mem he'
      have hlen := hf.length_eq
      have hjj := (List.forall₂_iff_get.mp hf).2 j (by omega) hj
      have hji : is[j]'(by omega) = i := by
        have h1 : (t.elems.map (·.place))[i]? = some e.place := by rw [List.getElem?_map, hie]; rfl
        have h2 : (t.elems.map (·.place))[is[j]'(by omega)]? = some e.place := by
          rw [List.getElem?_map]
          simp only [List.get_eq_getElem] at hjj
          rw [hjj, Option.map_some, hpl]
        have hlt := (List.getElem?_eq_some_iff.mp h2).1
        exact (List.getElem?_inj hlt hp).mp (h2.trans h1.symm)
      exact hn.1 (hji ▸ List.getElem_mem _)

theorem findIdx_type (Ts : List Ty) (X : Ty) : Tuple.mpFind (Ts.map TArg.type) (.type X) = Tuple.mpFind Ts X := by
  unfold Tuple.mpFind
  rw [List.findIdx_map]
  congr 1
  funext T
  simp

theorem mpUnique_type (Ts : List Ty) : Tuple.mpUnique (Ts.map TArg.type) = (Tuple.mpUnique Ts).map TArg.type := by
  induction Ts with
  | nil => rfl
  | cons T Ts ih =>
    rw [List.map_cons, Tuple.mpUnique, Tuple.mpUnique, List.map_cons, ih, List.filter_map]
    congr 2
    apply List.filter_congr
    intro x _
    simp

/-- **C68, to_unsorted_set, elements.** For a `tuple`: of each type the first element, kept as the tuple was given. -/
theorem C68_to_unsorted_set_elements (L : Lang) (k : Cat) (t : Tup) (ht : t.tmpl = .tuple) (h : ∀ e ∈ t.elems, Movable L k e) :
    ∃ ns, toUnsortedSet L k t = .ok ⟨.tuple, [], ns⟩ ∧ List.Forall₂ (Kept k) (Tuple.firsts (·.ty) [] t.elems) ns := by
  have hl : t.tuplelike = true := by simp [Tup.tuplelike, ht]
  have hmem : ∀ e ∈ Tuple.firsts (·.ty) [] t.elems, t.elems[Tuple.mpFind (t.elems.map (·.ty)) e.ty]? = some e :=
    Tuple.firsts_find (·.ty) [] t.elems
  have hty := Tuple.firsts_types (fun e : Elem => e.ty) [] t.elems
  simp only [List.not_mem_nil, not_false_eq_true, decide_true] at hty
  rw [List.filter_eq_self.mpr (fun _ _ => rfl)] at hty
  have hargs : t.args = (t.elems.map (·.ty)).map TArg.type := by
    unfold Tup.args; rw [ht, List.map_map]; rfl
  obtain ⟨ns, e1, e2⟩ := build_elems L k .tuple (Tuple.firsts (·.ty) [] t.elems) fun e hm => h e (List.mem_of_getElem? (hmem e hm))
  refine ⟨ns, ?_, e2⟩
  have hi : instantiate t.tmpl (Tuple.mpUnique t.args) = some ([], Tuple.mpUnique (t.elems.map (·.ty))) := by
    rw [ht, hargs, mpUnique_type]; simp only [instantiate, types_map]; rfl
  have hf : (Tuple.mpUnique (t.elems.map (·.ty))).map (t.found k) =
      (Tuple.firsts (·.ty) [] t.elems).map fun e => (Tup.access k .tuple e.ty, e.place) := by
    rw [← hty, List.map_map]
    apply List.map_congr_left
    intro e he
    simp only [Function.comp, Tup.found]
    rw [hargs, findIdx_type, hmem e he, ht]
  simp only [toUnsortedSet, hl, if_true, hi]
  rw [hf, ← hty, e1, ht]

/-- **C68 fails for tuples with index functions.** For an `indexed_tuple` whatever: if `to_unsorted_set` compiles, the element for a type is not made from the first element of
that type, but from the element behind it. -/
theorem C68_to_unsorted_set_indexed_violated (L : Lang) (k : Cat) (t : Tup) (ht : t.tmpl = .indexed) (n : New)
    (h : toUnsortedSet L k t = .ok n) :
    n.elems.length = (Tuple.mpUnique (t.elems.map (·.ty))).length ∧
    ∀ i (hi : i < n.elems.length), (Tuple.mpUnique (t.elems.map (·.ty)))[i]? = some n.elems[i].1 ∧
      ∃ e, t.elems[Tuple.mpFind (t.elems.map (·.ty)) n.elems[i].1 + 1]? = some e ∧ n.elems[i].2.place = e.place := by
  have hl : t.tuplelike = true := by simp [Tup.tuplelike, ht]
  have hargs : t.args = .functions t.fns :: (t.elems.map (·.ty)).map TArg.type := by
    unfold Tup.args; rw [ht, List.map_map]; rfl
  have hu : Tuple.mpUnique t.args = .functions t.fns :: (Tuple.mpUnique (t.elems.map (·.ty))).map TArg.type := by
    rw [hargs, Tuple.mpUnique, mpUnique_type]
    congr 1
    rw [List.filter_eq_self]
    intro x hx
    obtain ⟨T, _, rfl⟩ := List.mem_map.mp hx
    simp
  have hi : instantiate t.tmpl (Tuple.mpUnique t.args) = some (t.fns, Tuple.mpUnique (t.elems.map (·.ty))) := by
    rw [ht, hu]; simp only [instantiate, types_map]; rfl
  have hf : ∀ X, t.found k X = match t.elems[Tuple.mpFind (t.elems.map (·.ty)) X + 1]? with
      | some e => (Tup.access k t.tmpl e.ty, e.place)
      | none => (none, 0) := by
    intro X
    unfold Tup.found
    rw [hargs]
    have : Tuple.mpFind (.functions t.fns :: (t.elems.map (·.ty)).map TArg.type) (.type X) =
        Tuple.mpFind (t.elems.map (·.ty)) X + 1 := by
      rw [← findIdx_type]
      simp [Tuple.mpFind, List.findIdx_cons]
    rw [this]
    cases t.elems[Tuple.mpFind (t.elems.map (·.ty)) X + 1]? <;> rfl
  have hmade : ∀ T r p m, L.init T r p = some m → m.place = p := by
    intro T r p m hm
    unfold Lang.init at hm
    split at hm
    · split at hm
      · cases hm
      · split at hm
        · split at hm
          · cases hm; rfl
          · cases hm
        · split at hm
          · split at hm
            · split at hm <;> cases hm <;> rfl
            · cases hm; rfl
          · cases hm
    · split at hm
      · cases hm; rfl
      · cases hm
  have key : ∀ (Us : List Ty) (ms : List (Ty × Made)), L.build Us (Us.map (t.found k)) = some ms →
      ms.length = Us.length ∧ ∀ i (hi : i < ms.length), Us[i]? = some ms[i].1 ∧
        ∃ e, t.elems[Tuple.mpFind (t.elems.map (·.ty)) ms[i].1 + 1]? = some e ∧ ms[i].2.place = e.place := by
    intro Us
    induction Us with
    | nil => intro ms hb; simp only [List.map_nil, Lang.build, Option.some.injEq] at hb; subst hb; exact ⟨rfl, fun i hi => absurd hi (by simp)⟩
    | cons U Us ih =>
      intro ms hb
      rw [List.map_cons] at hb
      cases he : t.elems[Tuple.mpFind (t.elems.map (·.ty)) U + 1]? with
      | none => rw [hf U, he] at hb; simp [Lang.build] at hb
      | some e =>
        rw [hf U, he] at hb
        simp only at hb
        cases ha : Tup.access k t.tmpl e.ty with
        | none => rw [ha] at hb; simp [Lang.build] at hb
        | some r =>
          rw [ha] at hb
          simp only [Lang.build] at hb
          cases hm : L.init U r e.place with
          | none => rw [hm] at hb; simp at hb
          | some m =>
            cases hbs : L.build Us (Us.map (t.found k)) with
            | none => rw [hm, hbs] at hb; simp at hb
            | some l =>
              rw [hm, hbs] at hb
              cases hb
              obtain ⟨h1, h2⟩ := ih l hbs
              refine ⟨by simp [h1], fun i hi => ?_⟩
              cases i with
              | zero => exact ⟨rfl, e, he, hmade _ _ _ _ hm⟩
              | succ i => simpa using h2 i (by simpa using hi)
  simp only [toUnsortedSet, hl, if_true, hi] at h
  cases hb : L.build (Tuple.mpUnique (t.elems.map (·.ty))) ((Tuple.mpUnique (t.elems.map (·.ty))).map (t.found k)) with
  | none => rw [hb] at h; cases h
  | some ms =>
    rw [hb] at h
    injection h with h
    subst h
    exact key _ _ hb

/-- **C68 fails for tuples with index functions: it compiles.** If all elements, two at least, have the same type, the second one is kept. -/
theorem C68_to_unsorted_set_second_violated (L : Lang) (k : Cat) (fs : List Nat) (e e' : Elem) (es : List Elem)
    (hs : e.ty = e'.ty) (hes : ∀ x ∈ es, x.ty = e.ty) (h : Movable L k e') :
    ∃ m, toUnsortedSet L k ⟨.indexed, fs, e :: e' :: es⟩ = .ok ⟨.indexed, fs, [(e.ty, m)]⟩ ∧ Kept k e' (e.ty, m) := by
  obtain ⟨r, m, ha, hi, hk⟩ := init_kept L k .indexed e' h
  have hu : Tuple.mpUnique (Tup.args ⟨.indexed, fs, e :: e' :: es⟩) = [.functions fs, .type e.ty] := by
    have hall : ∀ (l : List Elem), (∀ x ∈ l, x.ty = e.ty) →
        (Tuple.mpUnique (l.map fun x => TArg.type x.ty)).filter (· ≠ .type e.ty) = [] := by
      intro l
      induction l with
      | nil => intro _; rfl
      | cons x l ih =>
        intro hx
        have ih' := ih fun y hy => hx y (List.mem_cons_of_mem _ hy)
        rw [List.map_cons, Tuple.mpUnique, hx x List.mem_cons_self, ih']
        simp
    have := hall (e' :: es) (by
      intro x hx
      rcases List.mem_cons.mp hx with rfl | hx
      · exact hs.symm
      · exact hes x hx)
    show Tuple.mpUnique (.functions fs :: .type e.ty :: (e' :: es).map fun x => TArg.type x.ty) = _
    rw [Tuple.mpUnique, Tuple.mpUnique, this]
    simp
  have hfound : Tup.found k ⟨.indexed, fs, e :: e' :: es⟩ e.ty = (some r, e'.place) := by
    unfold Tup.found
    have : Tuple.mpFind (Tup.args ⟨.indexed, fs, e :: e' :: es⟩) (.type e.ty) = 1 := by
      simp [Tuple.mpFind, Tup.args, List.findIdx_cons]
    rw [this]
    simp [ha]
  refine ⟨m, ?_, hs ▸ hk⟩
  simp only [toUnsortedSet, Tup.tuplelike, hu, instantiate, types, Option.map_some, List.map_cons, List.map_nil, hfound, Lang.build,
    hs ▸ hi]
  simp

/-! ## Cases that meet the hypotheses -/

/-- Types 0, 1, ... are ordinary. -/
private def plain : Lang := ⟨fun _ => false, fun _ => false, fun _ => 9⟩

/-- `indexed_tuple<..., int, int>{a, b}`, an rvalue: the set is made by moving out of `b`. -/
example : toUnsortedSet plain ⟨false, true⟩ ⟨.indexed, [4], [⟨.val ⟨0, false⟩, 100⟩, ⟨.val ⟨0, false⟩, 101⟩]⟩ =
    .ok ⟨.indexed, [4], [(.val ⟨0, false⟩, .moved 101)]⟩ := by decide

/-- With one element it does not compile. -/
example : toUnsortedSet plain ⟨false, true⟩ ⟨.indexed, [4], [⟨.val ⟨0, false⟩, 100⟩]⟩ = .illFormed := by decide

/-- The same tuple without index functions. -/
example : toUnsortedSet plain ⟨false, true⟩ ⟨.tuple, [], [⟨.val ⟨0, false⟩, 100⟩, ⟨.val ⟨0, false⟩, 101⟩]⟩ =
    .ok ⟨.tuple, [], [(.val ⟨0, false⟩, .moved 100)]⟩ := by decide

/-- Sorting three elements of an rvalue tuple, one of them const and one a reference. -/
example : ∃ es ns, List.Forall₂ (fun i e => [(⟨.val ⟨0, false⟩, 100⟩ : Elem), ⟨.val ⟨1, true⟩, 101⟩, ⟨.lref ⟨2, false⟩, 102⟩][i]? = some e) [2, 0, 1] es ∧
    pick plain ⟨false, true⟩ ⟨.tuple, [], [⟨.val ⟨0, false⟩, 100⟩, ⟨.val ⟨1, true⟩, 101⟩, ⟨.lref ⟨2, false⟩, 102⟩]⟩ [2, 0, 1] = .ok ⟨.tuple, [], ns⟩ ∧
    List.Forall₂ (Kept ⟨false, true⟩) es ns :=
  have ⟨es, ns, h1, h2, h3, _⟩ := C101_pick plain ⟨false, true⟩
    ⟨.tuple, [], [⟨.val ⟨0, false⟩, 100⟩, ⟨.val ⟨1, true⟩, 101⟩, ⟨.lref ⟨2, false⟩, 102⟩]⟩ (.inl rfl)
    (by simp [Movable, Lang.Ordinary, plain, Ty.IsR]) [2, 0, 1] (by simp)
  ⟨es, ns, h1, h2, h3⟩

end Verif.TupleBuild
