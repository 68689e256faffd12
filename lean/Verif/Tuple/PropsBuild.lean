import Verif.Tuple.Build
import Verif.Tuple.PropsAccess
import Mathlib.Data.List.Forall2

/-!
# C101: what building a tuple does to types and objects

Specification: for every element of the new tuple, its type and whether its object is a copy, has been moved out of the old one, or
is the old one.
-/

namespace Verif.TupleBuild

open TupleAccess

/-- The element of the new tuple for the element `e` of a tuple given as `k`: it has the same type; a reference refers to the same
object; a value is moved if the tuple is an rvalue and neither it nor the element is const, and copied otherwise. -/
def Kept (k : Cat) (e : Elem) (n : Ty × Made) : Prop :=
  n.1 = e.ty ∧
  match e.ty with
  | .val o => n.2 = if k.rvalue = true ∧ k.const = false ∧ o.const = false then .moved e.place else .copied e.place
  | _ => n.2 = .bound e.place

/-- The element for an argument whose type is neither array nor function: a value of the unqualified type, moved from an rvalue that is
not const and copied otherwise. -/
def Taken (a : Arg) (n : Ty × Made) : Prop :=
  n.1 = .val ⟨a.obj.name, false⟩ ∧
  n.2 = if a.rvalue = true ∧ a.obj.const = false then .moved a.place else .copied a.place

/-- An ordinary object type. -/
def Lang.Ordinary (L : Lang) (n : Nat) : Prop := L.isArray n = false ∧ L.isFunction n = false

/-- An element that can be put into a new tuple: no array, and if it is an rvalue reference then the tuple is an rvalue that is not
const. -/
def Movable (L : Lang) (k : Cat) (e : Elem) : Prop :=
  (e.ty.IsVal → L.Ordinary e.ty.obj.name) ∧ (e.ty.IsR → k.rvalue = true ∧ k.const = false)

theorem not_ordinary {L : Lang} {n : Nat} (h : ¬ L.Ordinary n) : (L.isArray n || L.isFunction n) = true := by
  unfold Lang.Ordinary at h
  cases h1 : L.isArray n <;> cases h2 : L.isFunction n <;> simp [h1, h2] at h ⊢

theorem init_kept (L : Lang) (k : Cat) (tm : Tmpl) (e : Elem) (h : Movable L k e) :
    ∃ r m, Tup.access k tm e.ty = some r ∧ L.init e.ty r e.place = some m ∧ Kept k e (e.ty, m) := by
  rcases e with ⟨T, p⟩
  rcases k with ⟨c, v⟩
  obtain ⟨h1, h2⟩ := h
  cases T with
  | val o =>
    obtain ⟨ha, hf⟩ := h1 trivial
    rcases o with ⟨nm, oc⟩
    simp only [Ty.obj] at ha hf
    cases tm <;> cases c <;> cases v <;> cases oc <;>
      simp [Tup.access, resolve, allOvs, Ov.viable, Ov.type, Ty.addConst, Ty.addL, Ty.addR, Lang.init, Ty.obj, ha, hf, Kept]
  | lref o =>
    rcases o with ⟨nm, oc⟩
    cases tm <;> cases c <;> cases v <;> cases oc <;>
      simp [Tup.access, resolve, allOvs, Ov.viable, Ov.type, Ty.addConst, Ty.addL, Ty.addR, Lang.init, initialises, Kept]
  | rref o =>
    obtain ⟨hv, hc⟩ := h2 trivial
    simp only at hv hc
    subst hv; subst hc
    rcases o with ⟨nm, oc⟩
    cases tm <;> cases oc <;>
      simp [Tup.access, resolve, allOvs, Ov.viable, Ov.type, Ty.addConst, Ty.addL, Ty.addR, Lang.init, initialises, Kept]

theorem build_append (L : Lang) {Ts Us : List Ty} {is js : List Init} {ms ns : List (Ty × Made)} (hx : L.build Ts is = some ms)
    (hy : L.build Us js = some ns) : L.build (Ts ++ Us) (is ++ js) = some (ms ++ ns) := by
  induction Ts generalizing is ms with
  | nil =>
    cases is with
    | nil => cases hx; exact hy
    | cons i is => simp [Lang.build] at hx
  | cons T Ts ih =>
    cases is with
    | nil => simp [Lang.build] at hx
    | cons i is =>
      rcases i with ⟨r, p⟩
      cases r with
      | none => simp [Lang.build] at hx
      | some r =>
        simp only [Lang.build] at hx
        cases hi : L.init T r p with
        | none => rw [hi] at hx; simp at hx
        | some m =>
          cases hb : L.build Ts is with
          | none => rw [hi, hb] at hx; simp at hx
          | some l =>
            rw [hi, hb] at hx
            cases hx
            simp only [List.cons_append, Lang.build, hi, ih hb]

theorem build_elems (L : Lang) (k : Cat) (tm : Tmpl) (es : List Elem) (h : ∀ e ∈ es, Movable L k e) :
    ∃ ms, L.build (es.map (·.ty)) (es.map fun e => (Tup.access k tm e.ty, e.place)) = some ms ∧ List.Forall₂ (Kept k) es ms := by
  induction es with
  | nil => exact ⟨[], rfl, .nil⟩
  | cons e es ih =>
    obtain ⟨ms, e1, e2⟩ := ih (fun x hx => h x (List.mem_cons_of_mem _ hx))
    obtain ⟨r, m, ha, hi, hk⟩ := init_kept L k tm e (h e List.mem_cons_self)
    exact ⟨(e.ty, m) :: ms, by simp only [List.map_cons, ha, Lang.build, hi, e1], .cons hk e2⟩

theorem types_map (es : List Ty) : types (es.map .type) = some es := by
  induction es with
  | nil => rfl
  | cons e es ih => rw [List.map_cons, types, ih]; rfl

theorem types_elems (es : List Elem) : types (es.map fun e => .type e.ty) = some (es.map (·.ty)) := by
  rw [← types_map (es.map (·.ty)), List.map_map]; rfl

theorem types_append {as bs : List TArg} {Ts Us : List Ty} (h1 : types as = some Ts) (h2 : types bs = some Us) :
    types (as ++ bs) = some (Ts ++ Us) := by
  induction as generalizing Ts with
  | nil => cases h1; exact h2
  | cons a as ih =>
    cases a with
    | type T =>
      rw [types] at h1
      cases hx : types as with
      | none => rw [hx] at h1; cases h1
      | some l => rw [hx] at h1; cases h1; rw [List.cons_append, types, ih hx]; rfl
    | functions f => cases h1
    | number n => cases h1

theorem allTypes_elems (es : List Elem) : allTypes (es.map fun e => .type e.ty) = true := by
  unfold allTypes; rw [List.all_map, List.all_eq_true]; intro e _; rfl

theorem make_ok (L : Lang) {tm : Tmpl} {as : List TArg} {is : List Init} {fs : List Nat} {Ts : List Ty} {ms : List (Ty × Made)}
    (h1 : instantiate tm as = some (fs, Ts)) (h2 : L.build Ts is = some ms) : L.make tm (some as) is = .ok ⟨tm, fs, ms⟩ := by
  simp only [Lang.make, h1, h2]

theorem init_taken (L : Lang) (a : Arg) (h : L.Ordinary a.obj.name) :
    ∃ m, L.init a.ty.removeCvref a.ty a.place = some m ∧ Taken a (a.ty.removeCvref, m) := by
  rcases a with ⟨⟨nm, c⟩, v, p⟩
  obtain ⟨ha, hf⟩ := h
  simp only at ha hf
  cases v <;> cases c <;> simp [Arg.ty, Ty.removeCvref, Ty.obj, Lang.init, ha, hf, Taken]

theorem init_array (L : Lang) (a : Arg) (h : ¬ L.Ordinary a.obj.name) (r : Ty) (p : Nat) : L.init a.ty.removeCvref r p = none := by
  have e : a.ty.removeCvref = .val { a.obj with const := false } := by
    unfold Arg.ty; split <;> rfl
  rw [e]
  simp only [Lang.init]
  rw [if_pos (not_ordinary h)]

/-- The index functions a tuple of the template has: none but for an `indexed_tuple`. -/
def Tup.functions (t : Tup) : List Nat := if t.tmpl = .indexed then t.fns else []

/-- **C101, adding an element.** For an argument that is neither array nor function, `tuple_cons` and `tuple_snoc` give a tuple of the
same template, with the same index functions, with the argument decayed, and copied or moved as it was given, and with the
elements of the tuple of the same types, copied or moved as the tuple was given, references kept. Missing: `tuple_cons` on an
`indexed_tuple`, and arguments that are arrays or functions: see below. -/
theorem C101_cons_partial (L : Lang) (a : Arg) (ha : L.Ordinary a.obj.name) (k : Cat) (t : Tup) (h : ∀ e ∈ t.elems, Movable L k e) :
    (t.tmpl = .tuple ∨ t.tmpl = .stdTuple →
      ∃ n ns, tupleCons L a k t = .ok ⟨t.tmpl, t.functions, n :: ns⟩ ∧ Taken a n ∧ List.Forall₂ (Kept k) t.elems ns) ∧
    (t.tmpl = .tuple ∨ t.tmpl = .stdTuple ∨ t.tmpl = .indexed →
      ∃ n ns, tupleSnoc L k t a = .ok ⟨t.tmpl, t.functions, ns ++ [n]⟩ ∧ Taken a n ∧ List.Forall₂ (Kept k) t.elems ns) := by
  obtain ⟨ns, hb, hk⟩ := build_elems L k t.tmpl t.elems h
  obtain ⟨m, hi, hm⟩ := init_taken L a ha
  have hone : L.build [a.ty.removeCvref] [(some a.ty, a.place)] = some [(a.ty.removeCvref, m)] := by
    simp only [Lang.build, hi]
  have hcons := build_append L hone hb
  have hsnoc := build_append L hb hone
  rcases t with ⟨tm, fs, es⟩
  have ht1 : types (.type a.ty.removeCvref :: es.map fun e => .type e.ty) = some (a.ty.removeCvref :: es.map (·.ty)) := by
    rw [types, types_elems]; rfl
  have ht2 : types ((es.map fun e => .type e.ty) ++ [.type a.ty.removeCvref]) = some (es.map (·.ty) ++ [a.ty.removeCvref]) :=
    types_append (types_elems es) rfl
  refine ⟨fun ht => ⟨_, ns, ?_, hm, hk⟩, fun ht => ⟨_, ns, ?_, hm, hk⟩⟩
  · rcases ht with e | e <;> simp only at e <;> subst e <;>
      · simp only [tupleCons, Tup.args, pushFront, allTypes_elems, if_true]
        exact make_ok L (by simp only [instantiate, ht1]; rfl) hcons
  · rcases ht with e | e | e <;> simp only at e <;> subst e
    · simp only [tupleSnoc, Tup.args, pushBack, allTypes_elems, if_true]
      exact make_ok L (by simp only [instantiate, ht2]; rfl) hsnoc
    · simp only [tupleSnoc, Tup.args, pushBack, allTypes_elems, if_true]
      exact make_ok L (by simp only [instantiate, ht2]; rfl) hsnoc
    · have hall : allTypes (.functions fs :: es.map fun e => .type e.ty) = true := by
        show (true && allTypes (es.map fun e => .type e.ty)) = true
        rw [allTypes_elems]; rfl
      simp only [tupleSnoc, Tup.args, pushBack, hall, if_true, List.cons_append]
      exact make_ok L (by simp only [instantiate, ht2]; rfl) hsnoc

theorem build_first (L : Lang) {T r : Ty} {p : Nat} (h : L.init T r p = none) (Ts : List Ty) (is : List Init) :
    L.build (T :: Ts) ((some r, p) :: is) = none := by
  simp only [Lang.build, h]

theorem build_length (L : Lang) {Ts : List Ty} {is : List Init} {ms : List (Ty × Made)} (h : L.build Ts is = some ms) :
    Ts.length = is.length := by
  induction Ts generalizing is ms with
  | nil => cases is with
    | nil => rfl
    | cons i is => simp [Lang.build] at h
  | cons T Ts ih =>
    cases is with
    | nil => simp [Lang.build] at h
    | cons i is =>
      rcases i with ⟨r, p⟩
      cases r with
      | none => simp [Lang.build] at h
      | some r =>
        simp only [Lang.build] at h
        split at h
        · rename_i h2; rw [List.length_cons, List.length_cons, ih h2]
        · cases h

theorem build_last (L : Lang) {T r : Ty} {p : Nat} (h : L.init T r p = none) (Ts : List Ty) (is : List Init) :
    L.build (Ts ++ [T]) (is ++ [(some r, p)]) = none := by
  cases hb : L.build (Ts ++ [T]) (is ++ [(some r, p)]) with
  | none => rfl
  | some ms =>
    exfalso
    have hl := build_length L hb
    simp only [List.length_append, List.length_cons, List.length_nil, Nat.add_right_cancel_iff] at hl
    induction Ts generalizing is ms with
    | nil =>
      cases is with
      | nil => simp [Lang.build, h] at hb
      | cons i is => cases hl
    | cons U Ts ih =>
      cases is with
      | nil => cases hl
      | cons i is =>
        rcases i with ⟨q, n⟩
        cases q with
        | none => simp [Lang.build] at hb
        | some q =>
          simp only [List.cons_append, Lang.build] at hb
          split at hb
          · rename_i h2; exact ih is _ h2 (by simpa using hl)
          · cases hb

theorem types_last {as : List TArg} {T : Ty} {Ts : List Ty} (h : types (as ++ [.type T]) = some Ts) : ∃ Us, Ts = Us ++ [T] := by
  induction as generalizing Ts with
  | nil => cases h; exact ⟨[], rfl⟩
  | cons a as ih =>
    cases a with
    | type U =>
      rw [List.cons_append, types] at h
      cases hx : types (as ++ [.type T]) with
      | none => rw [hx] at h; cases h
      | some l =>
        rw [hx] at h; cases h
        obtain ⟨Us, rfl⟩ := ih hx
        exact ⟨U :: Us, rfl⟩
    | functions f => cases h
    | number n => cases h

theorem instantiate_front {tm : Tmpl} {as : List TArg} {T : Ty} {fs : List Nat} {Ts : List Ty} (ha : allTypes as = true)
    (h : instantiate tm (.type T :: as) = some (fs, Ts)) : ∃ Us, Ts = T :: Us := by
  have key : ∀ {x : List Nat}, (types (.type T :: as)).map (x, ·) = some (fs, Ts) → ∃ Us, Ts = T :: Us := by
    intro x hx
    rw [types] at hx
    cases hy : types as with
    | none => rw [hy] at hx; cases hx
    | some l => rw [hy] at hx; cases hx; exact ⟨l, rfl⟩
  cases tm with
  | tuple => exact key h
  | stdTuple => exact key h
  | indexed => cases h
  | stdPair =>
    rcases as with _ | ⟨a, _ | ⟨b, as⟩⟩
    · cases h
    · cases a <;> cases h; exact ⟨_, rfl⟩
    · cases a <;> cases h
  | stdArray =>
    rcases as with _ | ⟨a, _ | ⟨b, as⟩⟩
    · cases h
    · cases a with
      | number n => cases ha
      | _ => cases h
    · cases a <;> cases h

theorem instantiate_back {tm : Tmpl} {as : List TArg} {T : Ty} {fs : List Nat} {Ts : List Ty}
    (h : instantiate tm (as ++ [.type T]) = some (fs, Ts)) : ∃ Us, Ts = Us ++ [T] := by
  have key : ∀ {x : List Nat} {as : List TArg}, (types (as ++ [.type T])).map (x, ·) = some (fs, Ts) → ∃ Us, Ts = Us ++ [T] := by
    intro x as hx
    cases hy : types (as ++ [.type T]) with
    | none => rw [hy] at hx; cases hx
    | some l => rw [hy] at hx; cases hx; exact types_last hy
  cases tm with
  | tuple => exact key h
  | stdTuple => exact key h
  | indexed =>
    cases as with
    | nil => cases h
    | cons a as =>
      cases a with
      | functions f => exact key (as := as) h
      | _ => cases h
  | stdPair =>
    rcases as with _ | ⟨a, _ | ⟨b, _ | ⟨c, as⟩⟩⟩
    · cases h
    · cases a <;> cases h; exact ⟨[_], rfl⟩
    · cases a <;> cases b <;> cases h
    · cases a <;> cases b <;> cases h
  | stdArray =>
    rcases as with _ | ⟨a, _ | ⟨b, _ | ⟨c, as⟩⟩⟩
    · cases h
    · cases a <;> cases h
    · cases a <;> cases b <;> cases h
    · cases a <;> cases b <;> cases h

/-- **C101, arrays and functions.** The documentation says that the single argument is decayed, as by `make_tuple`. But for every array
or function `tuple_cons` and `tuple_snoc` are ill-formed, for every tuple, while `make_tuple` makes a pointer. -/
theorem C101_decay_violated (L : Lang) (a : Arg) (ha : ¬ L.Ordinary a.obj.name) (k : Cat) (t : Tup)
    (hp : L.Ordinary (L.pointer a.obj)) :
    tupleCons L a k t = .illFormed ∧ tupleSnoc L k t a = .illFormed ∧
    makeTuple L [a] = .ok ⟨.tuple, [], [(.val ⟨L.pointer a.obj, false⟩, .pointer a.place)]⟩ := by
  have hn := init_array L a ha a.ty a.place
  refine ⟨?_, ?_, ?_⟩
  · unfold tupleCons pushFront
    split
    · rename_i hall
      simp only [Lang.make]
      split
      · rfl
      · rename_i fs Ts hi
        obtain ⟨Us, rfl⟩ := instantiate_front hall hi
        rw [build_first L hn]
    · rfl
  · unfold tupleSnoc pushBack
    split
    · simp only [Lang.make]
      split
      · rfl
      · rename_i fs Ts hi
        obtain ⟨Us, rfl⟩ := instantiate_back hi
        rw [build_last L hn]
    · rfl
  · have ho : a.ty.obj = a.obj := by unfold Arg.ty; split <;> rfl
    have hx := not_ordinary ha
    have hd : L.decay a.ty = .val ⟨L.pointer a.obj, false⟩ := by
      unfold Lang.decay; rw [ho, if_pos hx]
    have hi : L.init (.val ⟨L.pointer a.obj, false⟩) a.ty a.place = some (.pointer a.place) := by
      simp only [Lang.init, ho, hp.1, hp.2, Bool.or_self, Bool.false_eq_true, if_false, hx, if_true]
    exact make_ok L (by simp only [List.map_cons, List.map_nil, hd]; rfl) (by simp only [List.map_cons, List.map_nil, Lang.build, hi])

/-- **C101, indexed tuples.** `tuple_cons` on an `indexed_tuple` is ill-formed whatever the argument, as is `filter`: the list of index
functions does not stay in its place. -/
theorem C101_indexed_violated (L : Lang) (a : Arg) (k : Cat) (t : Tup) (ht : t.tmpl = .indexed) (pred : Ty → Bool) :
    tupleCons L a k t = .illFormed ∧ filter L pred k t = .illFormed := by
  rcases t with ⟨tm, fs, es⟩
  simp only at ht
  subst ht
  have hall : allTypes (.functions fs :: es.map fun e => .type e.ty) = true := by
    show (true && allTypes (es.map fun e => .type e.ty)) = true
    rw [allTypes_elems]; rfl
  refine ⟨?_, ?_⟩
  · simp only [tupleCons, Tup.args, pushFront, hall, if_true]; rfl
  · simp only [filter, Tup.args, assign, hall, if_true, Lang.make]
    cases es.filter fun e => pred e.ty <;> rfl

/-- **C101, arrays and pairs.** `tuple_cons`, `tuple_snoc` and `filter` accept a `std::array`, but are ill-formed whatever its elements
and the argument; `tuple_cons` and `tuple_snoc` are ill-formed on a `std::pair`, which cannot have three elements. -/
theorem C101_array_violated (L : Lang) (a : Arg) (k : Cat) (t : Tup) (pred : Ty → Bool) :
    (t.tmpl = .stdArray → tupleCons L a k t = .illFormed ∧ tupleSnoc L k t a = .illFormed ∧ filter L pred k t = .illFormed) ∧
    (t.tmpl = .stdPair → t.elems.length = 2 → tupleCons L a k t = .illFormed ∧ tupleSnoc L k t a = .illFormed) := by
  rcases t with ⟨tm, fs, es⟩
  refine ⟨fun ht => ?_, fun ht hl => ?_⟩ <;> simp only at ht <;> subst ht
  · exact ⟨rfl, rfl, rfl⟩
  · match es, hl with
    | [_, _], _ => exact ⟨rfl, rfl⟩

/-- A pair has two elements. -/
example : (⟨.stdPair, [], [⟨.val ⟨0, false⟩, 1⟩, ⟨.val ⟨0, false⟩, 2⟩]⟩ : Tup).elems.length = 2 := rfl

/-- **C101, make_tuple.** Ordinary arguments are copied or moved as given. `make_indexed_tuple` does the same. -/
theorem C101_make (L : Lang) (fs : List Nat) (as : List Arg) (h : ∀ a ∈ as, L.Ordinary a.obj.name) :
    ∃ ns, makeTuple L as = .ok ⟨.tuple, [], ns⟩ ∧ makeIndexedTuple L fs as = .ok ⟨.indexed, fs, ns⟩ ∧ List.Forall₂ Taken as ns := by
  have hd : ∀ a ∈ as, L.decay a.ty = a.ty.removeCvref := by
    intro a ha
    have ho : a.ty.obj = a.obj := by unfold Arg.ty; split <;> rfl
    unfold Lang.decay; rw [ho, (h a ha).1, (h a ha).2]; rfl
  have hm : (as.map fun a => TArg.type (L.decay a.ty)) = (as.map fun a => a.ty.removeCvref).map .type := by
    rw [List.map_map]; exact List.map_congr_left fun a ha => by rw [hd a ha]; rfl
  have hm' : (as.map fun a => TArg.type a.ty.removeCvref) = (as.map fun a => a.ty.removeCvref).map .type := by
    rw [List.map_map]; rfl
  have hb : ∃ ns, L.build (as.map fun a => a.ty.removeCvref) (as.map fun a => (some a.ty, a.place)) = some ns ∧
      List.Forall₂ Taken as ns := by
    clear hd hm hm'
    induction as with
    | nil => exact ⟨[], rfl, .nil⟩
    | cons a as ih =>
      obtain ⟨ns, e1, e2⟩ := ih (fun x hx => h x (List.mem_cons_of_mem _ hx))
      obtain ⟨m, hi, ht⟩ := init_taken L a (h a List.mem_cons_self)
      exact ⟨_ :: ns, by simp only [List.map_cons, Lang.build, hi, e1], .cons ht e2⟩
  obtain ⟨ns, e1, e2⟩ := hb
  refine ⟨ns, make_ok L ?_ e1, make_ok L ?_ e1, e2⟩
  · rw [hm]; simp only [instantiate, types_map]; rfl
  · rw [hm']; simp only [instantiate, types_map]; rfl

/-- **C101, rearranging.** `filter` (on tuples without index functions) and `apply_indices` keep the types of the elements, refer to the
same objects, move from rvalue tuples only and copy from the others. -/
theorem C101_keep_partial (L : Lang) (k : Cat) (t : Tup) (h : ∀ e ∈ t.elems, Movable L k e) :
    (∀ pred, t.tmpl = .tuple ∨ t.tmpl = .stdTuple →
      ∃ ns, filter L pred k t = .ok ⟨t.tmpl, [], ns⟩ ∧ List.Forall₂ (Kept k) (t.elems.filter fun e => pred e.ty) ns) ∧
    (∀ fs, t.tmpl = .tuple ∨ t.tmpl = .indexed →
      ∃ ns, applyIndices L k t fs = .ok ⟨.indexed, fs, ns⟩ ∧ List.Forall₂ (Kept k) t.elems ns) := by
  rcases t with ⟨tm, gs, es⟩
  refine ⟨fun pred ht => ?_, fun fs ht => ?_⟩
  · obtain ⟨ns, e1, e2⟩ := build_elems L k tm (es.filter fun e => pred e.ty) (fun e he => h e (List.mem_filter.1 he).1)
    refine ⟨ns, ?_, e2⟩
    rcases ht with e | e <;> simp only at e <;> subst e <;>
      · simp only [filter, Tup.args, assign, allTypes_elems, if_true]
        exact make_ok L (by simp only [instantiate, types_map]; rfl) e1
  · obtain ⟨ns, e1, e2⟩ := build_elems L k tm es h
    refine ⟨ns, ?_, e2⟩
    have hl : Tup.tuplelike ⟨tm, gs, es⟩ = true := by rcases ht with e | e <;> simp only at e <;> subst e <;> rfl
    simp only [applyIndices, hl, if_true]
    exact make_ok L (by simp only [instantiate, types_elems]; rfl) e1

/-- **C101, concatenation.** Every element of every tuple, in order, kept as its own tuple was given. -/
theorem C101_cat (L : Lang) (ts : List (Cat × Tup)) (ht : ∀ t ∈ ts, t.2.tmpl = .tuple ∨ t.2.tmpl = .indexed)
    (h : ∀ t ∈ ts, ∀ e ∈ t.2.elems, Movable L t.1 e) :
    ∃ nss : List (List (Ty × Made)), tupleCat L ts = .ok ⟨.tuple, [], nss.flatten⟩ ∧
      List.Forall₂ (fun t ns => List.Forall₂ (Kept t.1) t.2.elems ns) ts nss := by
  have hall : (ts.all fun t => t.2.tuplelike) = true := by
    rw [List.all_eq_true]
    intro t hm
    rcases ht t hm with e | e <;> simp [Tup.tuplelike, e]
  have key : ∀ ts : List (Cat × Tup), (∀ t ∈ ts, ∀ e ∈ t.2.elems, Movable L t.1 e) →
      ∃ (Ts : List Ty) (nss : List (List (Ty × Made))),
        types (ts.flatMap fun t => t.2.elems.map fun e => .type e.ty) = some Ts ∧
        L.build Ts (ts.flatMap fun t => t.2.inits t.1) = some nss.flatten ∧
        List.Forall₂ (fun t ns => List.Forall₂ (Kept t.1) t.2.elems ns) ts nss := by
    intro ts
    induction ts with
    | nil => exact fun _ => ⟨[], [], rfl, rfl, .nil⟩
    | cons t ts ih =>
      intro h
      obtain ⟨Ts, nss, e0, e1, e2⟩ := ih (fun x hx => h x (List.mem_cons_of_mem _ hx))
      obtain ⟨ns, e3, e4⟩ := build_elems L t.1 t.2.tmpl t.2.elems (h t List.mem_cons_self)
      refine ⟨t.2.elems.map (·.ty) ++ Ts, ns :: nss, ?_, ?_, .cons e4 e2⟩
      · rw [List.flatMap_cons]; exact types_append (types_elems _) e0
      · rw [List.flatMap_cons, List.flatten_cons]; exact build_append L e3 e1
  obtain ⟨Ts, nss, e0, e1, e2⟩ := key ts h
  refine ⟨nss, ?_, e2⟩
  simp only [tupleCat, hall, if_true]
  exact make_ok L (by simp only [instantiate, e0]; rfl) e1

/-- **C101, nothing is lost unasked.** No element is moved out of a tuple that is const or an lvalue. -/
theorem C101_safe (k : Cat) (hk : k.const = true ∨ k.rvalue = false) {es : List Elem} {ns : List (Ty × Made)}
    (h : List.Forall₂ (Kept k) es ns) (p : Nat) : ∀ n ∈ ns, n.2 ≠ .moved p := by
  induction h with
  | nil => exact fun n hn => by cases hn
  | @cons e n es ns h1 _ ih =>
    intro x hx
    rcases List.mem_cons.1 hx with rfl | hx
    · obtain ⟨_, h2⟩ := h1
      rcases hT : e.ty with o | o | o
      · rw [hT] at h2
        simp only at h2
        rw [h2, if_neg]
        · simp
        · rcases hk with hk | hk <;> simp [hk]
      · rw [hT] at h2; simp only at h2; rw [h2]; simp
      · rw [hT] at h2; simp only at h2; rw [h2]; simp
    · exact ih x hx

/-! ## Cases -/

/-- Type 5 is an array that decays to type 6. -/
def someLang : Lang := ⟨fun n => n = 5, fun _ => false, fun _ => 6⟩

/-- An rvalue put before a value and a reference of an rvalue tuple: both values are moved. -/
example : tupleCons someLang ⟨⟨0, false⟩, true, 100⟩ ⟨false, true⟩ ⟨.tuple, [], [⟨.val ⟨1, false⟩, 10⟩, ⟨.lref ⟨2, true⟩, 11⟩]⟩ =
    .ok ⟨.tuple, [], [(.val ⟨0, false⟩, .moved 100), (.val ⟨1, false⟩, .moved 10), (.lref ⟨2, true⟩, .bound 11)]⟩ := by decide

example : someLang.Ordinary 0 ∧ ∀ e ∈ ([⟨.val ⟨1, false⟩, 10⟩, ⟨.lref ⟨2, true⟩, 11⟩] : List Elem), Movable someLang ⟨false, true⟩ e := by
  refine ⟨⟨rfl, rfl⟩, fun e he => ?_⟩
  simp only [List.mem_cons, List.not_mem_nil, or_false] at he
  rcases he with rfl | rfl
  · exact ⟨fun _ => ⟨rfl, rfl⟩, fun h => h.elim⟩
  · exact ⟨fun h => h.elim, fun h => h.elim⟩

/-- A string literal (a const array): `tuple_snoc` is ill-formed, `make_tuple` makes a pointer. -/
example : ¬ someLang.Ordinary 5 ∧ someLang.Ordinary (someLang.pointer ⟨5, true⟩) ∧
    tupleSnoc someLang ⟨false, true⟩ ⟨.tuple, [], []⟩ ⟨⟨5, true⟩, false, 7⟩ = .illFormed ∧
    makeTuple someLang [⟨⟨5, true⟩, false, 7⟩] = .ok ⟨.tuple, [], [(.val ⟨6, false⟩, .pointer 7)]⟩ :=
  ⟨fun h => by have := h.1; simp [someLang] at this, ⟨rfl, rfl⟩, by decide, by decide⟩

/-- An lvalue and an rvalue tuple concatenated. -/
example : tupleCat someLang [(⟨false, false⟩, ⟨.tuple, [], [⟨.val ⟨1, false⟩, 10⟩]⟩),
      (⟨false, true⟩, ⟨.indexed, [3], [⟨.val ⟨1, false⟩, 20⟩, ⟨.rref ⟨2, false⟩, 21⟩]⟩)] =
    .ok ⟨.tuple, [], [(.val ⟨1, false⟩, .copied 10), (.val ⟨1, false⟩, .moved 20), (.rref ⟨2, false⟩, .bound 21)]⟩ := by decide

/-- An indexed tuple with a new last element keeps its index function. -/
example : tupleSnoc someLang ⟨false, false⟩ ⟨.indexed, [3], [⟨.val ⟨1, false⟩, 10⟩]⟩ ⟨⟨2, true⟩, false, 7⟩ =
    .ok ⟨.indexed, [3], [(.val ⟨1, false⟩, .copied 10), (.val ⟨2, false⟩, .copied 7)]⟩ := by decide

end Verif.TupleBuild
