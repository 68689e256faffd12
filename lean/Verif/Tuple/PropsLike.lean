import Mathlib.Data.List.Forall2
import Verif.Tuple.Like
import Verif.Tuple.Props

/-!
# C105: the tuple algorithms work on everything that is like a tuple, and on nothing else

`stdx::tuple`, `stdx::indexed_tuple`, `std::tuple`, `std::pair`, `std::array`, spans of static extent and integer sequences can be
mixed; the algorithms go through the elements up to the length of the shortest.  Arguments that are all like arrays need the
`unrolled_` functions.  Anything else is rejected.
-/

namespace Verif.Like

open Tuple (ZipRun ZipAsk zipLength)

variable {α β σ : Type}

/-- What the documentation calls a type with the tuple protocol, with the elements `get` gives: specification. -/
inductive Has (num : Nat → α) : Arg α → List α → Prop
  | tuple (xs) : Has num (.tuple xs) xs
  | indexed (xs) : Has num (.indexed xs) xs
  | stdTuple (xs) : Has num (.stdTuple xs) xs
  | pair (x y) : Has num (.pair x y) [x, y]
  | array (xs) : Has num (.array xs) xs
  | span (xs) : Has num (.span xs) xs
  | seq (n xs) : xs.length = n → (∀ i x, xs[i]? = some x → x = num i) → Has num (.seq n) xs

/-- The call compiles exactly if `P` holds, and then does `x`. -/
def Compiles {γ : Type} (P : Prop) (call : Option γ) (x : γ) : Prop := (P → call = some x) ∧ (¬ P → call = none)

/-- What is like an array: specification. -/
def ArrayLike (a : Arg α) : Prop := (∃ xs, a = .array xs) ∨ (∃ xs, a = .span xs) ∨ ∃ n, a = .seq n

theorem Has.elems {num : Nat → α} {a : Arg α} {xs : List α} (h : Has num a xs) : elems num a = xs := by
  cases h with
  | seq n xs hl hx =>
    subst hl
    refine List.ext_getElem (by simp [Like.elems]) fun i h1 h2 => ?_
    have := hx i xs[i] (List.getElem?_eq_getElem h2)
    simp [Like.elems, this]
  | _ => rfl

theorem Has.size {num : Nat → α} {a : Arg α} {xs : List α} (h : Has num a xs) (u : Bool) : tupleSize u a = (xs.length, true) := by
  cases h with
  | seq n xs hl hx => subst hl; rfl
  | _ => rfl

theorem Has.protocol {num : Nat → α} {a : Arg α} {xs : List α} (h : Has num a xs) (u : Bool) : hasTupleProtocol u a = true := by
  unfold hasTupleProtocol
  rw [h.size u]
  cases h with
  | pair => rfl
  | seq n xs hl hx => subst hl; cases xs <;> simp [hasGet]
  | tuple xs => cases xs <;> simp [hasGet]
  | indexed xs => cases xs <;> simp [hasGet]
  | stdTuple xs => cases xs <;> simp [hasGet]
  | array xs => cases xs <;> simp [hasGet]
  | span xs => cases xs <;> simp [hasGet]

theorem Has.array_iff {num : Nat → α} {a : Arg α} {xs : List α} (h : Has num a xs) (u : Bool) :
    hasArrayProtocol u a = true ↔ ArrayLike a := by
  unfold hasArrayProtocol
  rw [h.protocol u]
  cases h <;> simp [hasValueType, ArrayLike]

/-- **C105, protocol, partial.** Where `std::size_t` is not `unsigned int`, the constraint of the algorithms accepts what is like a
tuple and, besides, only objects of a class with a static `size()` of zero.  Missing: the other targets, see below. -/
theorem C105_protocol_partial (num : Nat → α) (a : Arg α) :
    hasTupleProtocol false a = true ↔ (∃ xs, Has num a xs) ∨ ∃ b, a = .sizeZero b := by
  constructor
  · intro h
    cases a with
    | tuple xs => exact .inl ⟨_, .tuple xs⟩
    | indexed xs => exact .inl ⟨_, .indexed xs⟩
    | stdTuple xs => exact .inl ⟨_, .stdTuple xs⟩
    | pair x y => exact .inl ⟨_, .pair x y⟩
    | array xs => exact .inl ⟨_, .array xs⟩
    | span xs => exact .inl ⟨_, .span xs⟩
    | seq n =>
      refine .inl ⟨(List.range n).map num, .seq n _ (by simp) fun i x hx => ?_⟩
      simp only [List.getElem?_map, Option.map_eq_some_iff] at hx
      obtain ⟨j, hj, rfl⟩ := hx
      rw [List.getElem?_range (by
        by_contra hc
        rw [List.getElem?_eq_none (by simpa using hc)] at hj
        cases hj)] at hj
      cases hj; rfl
    | sizeZero b => exact .inr ⟨b, rfl⟩
    | other b => cases h
  · rintro (⟨xs, h⟩ | ⟨b, rfl⟩)
    · exact h.protocol false
    · rfl

theorem mem_zip_zero {ns : List Nat} (h : 0 ∈ ns) : zipLength ns = 0 := by
  have := (Tuple.C63_zip_length ns (List.ne_nil_of_mem h)).2 0 h
  omega

/-- An argument with a member type `value_type`: what is like an array, and of the others those said to have it. Specification. -/
def WithValueType (a : Arg α) : Prop := ArrayLike a ∨ a = .sizeZero true ∨ a = .other true

theorem withValueType (a : Arg α) : hasValueType a = true ↔ WithValueType a := by
  cases a <;> simp [hasValueType, WithValueType, ArrayLike]

/-- **C105 fails where `std::size_t` is `unsigned int`**, as on most 32-bit targets: every argument is accepted, and one that is not
like a tuple (a `std::vector`, a span of dynamic extent, a number) makes every algorithm do nothing: no function is called, `all_of`
and `none_of` are true, `any_of` is false. Only if all arguments have a `value_type` does `enumerate` not compile. -/
theorem C105_protocol_violated (num : Nat → α) (as : List (Arg α)) (b : Bool) (h : .other b ∈ as) (op : Nat → List α → σ → σ)
    (f : List α → σ → Bool × σ) (s : σ) :
    unrolledForEach true num (op 0) as s = some (.ok s) ∧
    ((∀ a ∈ as, WithValueType a) → enumerate true num op as s = none) ∧
    ((∃ a ∈ as, ¬ WithValueType a) →
      forEach true num (op 0) as s = some (.ok s) ∧ enumerate true num op as s = some (.ok s) ∧
      allOf true num f as s = some (.ok (true, s)) ∧ anyOf true num f as s = some (.ok (false, s)) ∧
      noneOf true num f as s = some (.ok (true, s))) ∧
    (hasTupleProtocol false (.other (α := α) b) = false ∧ unrolledForEach false num (op 0) as s = none ∧
      forEach false num (op 0) as s = none ∧ enumerate false num op as s = none ∧ allOf false num f as s = none) := by
  have hz : indices true as = [] := by
    unfold indices
    rw [mem_zip_zero (List.mem_map.2 ⟨_, h, rfl⟩)]; rfl
  have hp : ∀ a : Arg α, hasTupleProtocol true a = true := by
    intro a
    cases a with
    | seq n => cases n <;> simp [hasTupleProtocol, tupleSize, hasGet]
    | pair x y => rfl
    | sizeZero b => rfl
    | other b => rfl
    | tuple xs => cases xs <;> simp [hasTupleProtocol, tupleSize, hasGet]
    | indexed xs => cases xs <;> simp [hasTupleProtocol, tupleSize, hasGet]
    | stdTuple xs => cases xs <;> simp [hasTupleProtocol, tupleSize, hasGet]
    | array xs => cases xs <;> simp [hasTupleProtocol, tupleSize, hasGet]
    | span xs => cases xs <;> simp [hasTupleProtocol, tupleSize, hasGet]
  have hc : constraint true as = true := List.all_eq_true.2 fun a _ => hp a
  have hc' : constraint false as = false := by
    unfold constraint
    rw [List.all_eq_false]
    exact ⟨_, h, by simp [hasTupleProtocol, tupleSize]⟩
  have he : ∀ op : Nat → List α → σ → σ, eachCalls true num op as s = .ok s := by
    intro op; unfold eachCalls; rw [hz]; rfl
  refine ⟨?_, ?_, ?_, ?_⟩
  · unfold unrolledForEach; rw [if_pos hc, he]
  · intro hall
    have hn : notAllArrays true as = false := by
      unfold notAllArrays
      rw [List.any_eq_false]
      intro a ha
      simp [hasArrayProtocol, hp a, (withValueType a).2 (hall a ha)]
    unfold enumerate
    rw [hn]
    simp
  · rintro ⟨a, ha, hv⟩
    rw [← withValueType, Bool.not_eq_true] at hv
    have hn : notAllArrays true as = true := by
      unfold notAllArrays
      rw [List.any_eq_true]
      exact ⟨a, ha, by simp [hasArrayProtocol, hv]⟩
    unfold forEach enumerate allOf anyOf noneOf
    rw [hc, hn, hz]
    simp [he, Tuple.andFoldL, Tuple.orFoldL]
  · unfold unrolledForEach forEach enumerate allOf
    rw [hc']
    simp [hasTupleProtocol, tupleSize]

theorem forall_columns {num : Nat → α} {as : List (Arg α)} {ts : List (List α)} (h : List.Forall₂ (Has num) as ts) (u : Bool) :
    columns num as = ts ∧ indices u as = List.range (zipLength (ts.map List.length)) ∧ constraint u as = true := by
  have key : columns num as = ts ∧ (as.map fun a => (tupleSize u a).1) = ts.map List.length ∧ constraint u as = true := by
    induction h with
    | nil => exact ⟨rfl, rfl, rfl⟩
    | @cons a t as ts h1 _ ih =>
      refine ⟨?_, ?_, ?_⟩
      · show elems num a :: columns num as = _
        rw [h1.elems, ih.1]
      · rw [List.map_cons, List.map_cons, ih.2.1, h1.size u]
      · show (hasTupleProtocol u a && constraint u as) = true
        rw [h1.protocol u, ih.2.2]; rfl
  refine ⟨key.1, ?_, key.2.2⟩
  unfold indices
  rw [key.2.1]

theorem each_eq {num : Nat → α} {as : List (Arg α)} {ts : List (List α)} (h : List.Forall₂ (Has num) as ts) (u : Bool)
    (op : Nat → List α → σ → σ) (s : σ) : eachCalls u num op as s = Tuple.enumerate op ts s := by
  obtain ⟨h1, h2, _⟩ := forall_columns h u
  unfold eachCalls Tuple.enumerate
  rw [h1, h2]

theorem notAll_iff {num : Nat → α} {as : List (Arg α)} {ts : List (List α)} (h : List.Forall₂ (Has num) as ts) (u : Bool) :
    notAllArrays u as = true ↔ ∃ a ∈ as, ¬ ArrayLike a := by
  unfold notAllArrays
  rw [List.any_eq_true]
  have hm : ∀ a ∈ as, ∃ t, Has num a t := by
    clear u
    induction h with
    | nil => intro a ha; cases ha
    | cons h1 _ ih =>
      intro a ha
      rcases List.mem_cons.1 ha with rfl | ha
      · exact ⟨_, h1⟩
      · exact ih a ha
  refine exists_congr fun a => and_congr_right fun ha => ?_
  obtain ⟨t, ht⟩ := hm a ha
  rw [Bool.not_eq_true', ← Bool.not_eq_true]
  exact not_congr (ht.array_iff u)

/-- **C105, calls.** On every target, for arguments that are like tuples, mixed in any way: `unrolled_for_each` is accepted, and calls the
function in order on the elements, up to the length of the shortest; `for_each` and `enumerate` do the same, and are accepted
exactly if some argument is not like an array; `all_of`, `any_of` and `none_of` likewise ask in order, and stop as soon as they know. -/
theorem C105_calls (u : Bool) (num : Nat → α) (as : List (Arg α)) (ts : List (List α)) (h : List.Forall₂ (Has num) as ts)
    (op : Nat → List α → σ → σ) (f : List α → σ → Bool × σ) (s : σ) :
    (∃ bs s', unrolledForEach u num (op 0) as s = some (.ok s') ∧
      ZipRun (fun _ xs s => ((), op 0 xs s)) ts 0 (zipLength (ts.map List.length)) s bs s' ∧
      Compiles (∃ a ∈ as, ¬ ArrayLike a) (forEach u num (op 0) as s) (.ok s')) ∧
    (∃ bs s', ZipRun (fun i xs s => ((), op i xs s)) ts 0 (zipLength (ts.map List.length)) s bs s' ∧
      Compiles (∃ a ∈ as, ¬ ArrayLike a) (enumerate u num op as s) (.ok s')) ∧
    (∃ b s', ZipAsk false f ts 0 (zipLength (ts.map List.length)) s b s' ∧
      Compiles (∃ a ∈ as, ¬ ArrayLike a) (allOf u num f as s) (.ok (b, s'))) ∧
    (∃ b s', ZipAsk true f ts 0 (zipLength (ts.map List.length)) s b s' ∧
      Compiles (∃ a ∈ as, ¬ ArrayLike a) (anyOf u num f as s) (.ok (b, s')) ∧
      Compiles (∃ a ∈ as, ¬ ArrayLike a) (noneOf u num f as s) (.ok (!b, s'))) := by
  obtain ⟨hcol, hind, hcon⟩ := forall_columns h u
  have hn := notAll_iff h u
  have hif : ∀ {γ : Type} (x : γ),
      Compiles (∃ a ∈ as, ¬ ArrayLike a) (if constraint u as && notAllArrays u as then some x else none) x := by
    intro γ x
    rw [hcon, Bool.true_and]
    exact ⟨fun hx => if_pos (hn.2 hx), fun hx => if_neg (fun hy => hx (hn.1 hy))⟩
  have htup : isTuple as = true → notAllArrays u as = true := by
    intro ht
    rw [hn]
    match as, ht with
    | [.tuple xs], _ => exact ⟨_, List.mem_singleton_self _, by rintro (⟨_, h⟩ | ⟨_, h⟩ | ⟨_, h⟩) <;> cases h⟩
    | [.indexed xs], _ => exact ⟨_, List.mem_singleton_self _, by rintro (⟨_, h⟩ | ⟨_, h⟩ | ⟨_, h⟩) <;> cases h⟩
  have hor : (isTuple as || notAllArrays u as) = notAllArrays u as := by
    cases hi : isTuple as
    · rfl
    · rw [htup hi]; rfl
  refine ⟨?_, ?_, ?_, ?_⟩
  · obtain ⟨bs, s', e1, e2⟩ := Tuple.C63_enumerate (fun _ => op 0) ts s
    refine ⟨bs, s', ?_, e2, ?_⟩
    · unfold unrolledForEach; rw [if_pos hcon, each_eq h, e1]
    · unfold forEach; rw [hor, each_eq h, e1]; exact hif _
  · obtain ⟨bs, s', e1, e2⟩ := Tuple.C63_enumerate op ts s
    exact ⟨bs, s', e2, by unfold enumerate; rw [each_eq h, e1]; exact hif _⟩
  · obtain ⟨⟨b, s', e1, e2⟩, _⟩ := Tuple.C64_short_circuit f ts s
    refine ⟨b, s', e2, ?_⟩
    unfold allOf
    unfold Tuple.allOf at e1
    rw [hcol, hind, e1]; exact hif _
  · obtain ⟨_, ⟨b, s', e1, e2, _⟩⟩ := Tuple.C64_short_circuit f ts s
    unfold Tuple.anyOf at e1
    refine ⟨b, s', e2, ?_, ?_⟩
    · unfold anyOf; rw [hcol, hind, e1]; exact hif _
    · unfold noneOf; rw [hcol, hind, e1]; exact hif _

theorem transform_calls {num : Nat → α} {as : List (Arg α)} {ts : List (List α)} (h : List.Forall₂ (Has num) as ts) (u : Bool)
    (op : List α → σ → β × σ) (s : σ) :
    ∃ bs s', Tuple.calls (Tuple.invokeAt op (columns num as)) (indices u as) s = .ok (bs, s') ∧
      ZipRun (fun _ => op) ts 0 (zipLength (ts.map List.length)) s bs s' ∧ bs.length = zipLength (ts.map List.length) := by
  obtain ⟨hcol, hind, _⟩ := forall_columns h u
  obtain ⟨bs, s', e1, e2, e3⟩ := Tuple.C63_transform op ts s
  unfold Tuple.transform at e1
  exact ⟨bs, s', by rw [hcol, hind, e1], e2, e3⟩

/-- **C105, `transform`, partial.** If the first argument is a `stdx::tuple` or a `std::tuple`, the results come in order, in a tuple of
the same kind; for a single `indexed_tuple` in a `stdx::tuple`; two results for a `std::pair` in a `std::pair`.  Missing: everything else as first argument, see below. -/
theorem C105_transform_partial (u : Bool) (num : Nat → α) (a : Arg α) (rest : List (Arg α)) (ts : List (List α))
    (h : List.Forall₂ (Has num) (a :: rest) ts) (op : List α → σ → β × σ) (s : σ) :
    ∃ bs s', ZipRun (fun _ => op) ts 0 (zipLength (ts.map List.length)) s bs s' ∧
      ((∃ xs, a = .tuple xs) → transform u num op (a :: rest) s = some (.ok (.tuple bs, s'))) ∧
      ((∃ xs, a = .stdTuple xs) → transform u num op (a :: rest) s = some (.ok (.stdTuple bs, s'))) ∧
      ((∃ xs, a = .indexed xs) → rest = [] → transform u num op (a :: rest) s = some (.ok (.tuple bs, s'))) ∧
      ((∃ x y, a = .pair x y) → zipLength (ts.map List.length) = 2 →
        ∃ b c, bs = [b, c] ∧ transform u num op (a :: rest) s = some (.ok (.pair b c, s'))) := by
  obtain ⟨bs, s', e1, e2, hl⟩ := transform_calls h u op s
  obtain ⟨_, _, hcon⟩ := forall_columns h u
  refine ⟨bs, s', e2, ?_, ?_, ?_, ?_⟩
  · rintro ⟨xs, rfl⟩
    unfold transform
    dsimp only
    rw [if_pos hcon, e1]
    dsimp only
    split <;> rfl
  · rintro ⟨xs, rfl⟩
    unfold transform
    dsimp only
    rw [if_pos hcon, e1]
    cases rest <;> rfl
  · rintro ⟨xs, rfl⟩ rfl
    unfold transform
    dsimp only
    rw [if_pos hcon, e1]
    rfl
  · rintro ⟨x, y, rfl⟩ h2
    rw [h2] at hl
    match bs, hl with
    | [b, c], _ =>
      refine ⟨b, c, rfl, ?_⟩
      unfold transform
      dsimp only
      rw [if_pos hcon, e1]
      rfl

/-- **C105 fails for `transform` (and `filter`)** with another first argument: the call satisfies the constraint, and does not
compile.  So it is for every array, span, integer sequence, and every indexed tuple that is not the only argument; for a pair, unless exactly two
results come out. -/
theorem C105_transform_violated (u : Bool) (num : Nat → α) (a : Arg α) (rest : List (Arg α)) (ts : List (List α))
    (h : List.Forall₂ (Has num) (a :: rest) ts) (op : List α → σ → β × σ) (s : σ) (pred : α → Bool) :
    constraint u (a :: rest) = true ∧
    ((ArrayLike a ∨ (∃ xs, a = .indexed xs) ∧ rest ≠ []) → transform u num op (a :: rest) s = none) ∧
    ((∃ x y, a = .pair x y) →
      (transform u num op (a :: rest) s = none ↔ zipLength (ts.map List.length) ≠ 2) ∧
      (filter u num pred a = none ↔ ∃ x y, a = .pair x y ∧ (pred x = false ∨ pred y = false))) ∧
    (ArrayLike a ∨ (∃ xs, a = .indexed xs) → filter u num pred a = none) := by
  obtain ⟨bs, s', e1, _, hl⟩ := transform_calls h u op s
  obtain ⟨_, _, hcon⟩ := forall_columns h u
  have hp : hasTupleProtocol u a = true := by
    cases h with
    | cons h1 _ => exact h1.protocol u
  refine ⟨hcon, ?_, ?_, ?_⟩
  · intro ha
    unfold transform
    dsimp only
    rw [if_pos hcon, e1]
    rcases ha with (⟨xs, rfl⟩ | ⟨xs, rfl⟩ | ⟨n, rfl⟩) | ⟨⟨xs, rfl⟩, hr⟩
    · rfl
    · rfl
    · rfl
    · cases rest with
      | nil => exact absurd rfl hr
      | cons b rest => rfl
  · rintro ⟨x, y, rfl⟩
    refine ⟨?_, ?_⟩
    · unfold transform
      dsimp only
      rw [if_pos hcon, e1, ← hl]
      match bs with
      | [] => simp [isTuple, assign]
      | [_] => simp [isTuple, assign]
      | [_, _] => simp [isTuple, assign]
      | _ :: _ :: _ :: _ => simp [isTuple, assign]
    · unfold filter
      rw [if_pos hp]
      constructor
      · intro hf
        refine ⟨x, y, rfl, ?_⟩
        by_contra hc
        rw [not_or, Bool.not_eq_false, Bool.not_eq_false] at hc
        simp [elems, assign, hc.1, hc.2] at hf
      · rintro ⟨x', y', hxy, hpred⟩
        cases hxy
        rcases hpred with hx | hy
        · cases hy : pred y <;> simp [elems, assign, hx, hy]
        · cases hx : pred x <;> simp [elems, assign, hx, hy]
  · intro ha
    unfold filter
    rw [if_pos hp]
    rcases ha with (⟨xs, rfl⟩ | ⟨xs, rfl⟩ | ⟨n, rfl⟩) | ⟨xs, rfl⟩ <;> rfl

/-- **C105, integer sequences.** Element `i` of an integer sequence of length `n` is the constant `i`; an index that is not a value of
the type of the sequence is rejected. -/
theorem C105_sequence (max n i : Nat) (hn : n ≤ max) (hi : i < n) :
    seqGet max i n = some i ∧ seqElement max i n = some i ∧ stdSeqElement max i n = some i ∧
    ∀ j, max ≤ j → seqGet max j n = none ∧ seqElement max j n = none ∧ stdSeqElement max j n = none := by
  have : i < max := by omega
  refine ⟨by simp [seqGet, this], by simp [seqGet, seqElement, hi, this], by simp [seqGet, stdSeqElement, this], fun j hj => ?_⟩
  have h1 : ¬ j < max := by omega
  have h2 : ¬ j < n := by omega
  simp [seqGet, seqElement, stdSeqElement, h1, h2]

example : seqGet 256 3 5 = some 3 ∧ seqGet 256 300 5 = none := by decide

/-- **C105 fails for `get` outside an integer sequence**: it is not rejected, but gives the constant. -/
theorem C105_sequence_violated (max n i : Nat) (hi : n ≤ i) (hm : i < max) :
    seqGet max i n = some i ∧ stdSeqElement max i n = some i ∧ seqElement max i n = none := by
  simp [seqGet, seqElement, stdSeqElement, hm, Nat.not_lt.2 hi]

/-- An array of three and an integer sequence of two, with a `stdx::tuple` of three: two calls. -/
example : List.Forall₂ (Has id) [.array [5, 6, 7], .seq 2, .tuple [1, 2, 3]] [[5, 6, 7], [0, 1], [1, 2, 3]] ∧
    forEach false id (fun xs s => s ++ [xs]) [.array [5, 6, 7], .seq 2, .tuple [1, 2, 3]] [] = some (.ok [[5, 0, 1], [6, 1, 2]]) ∧
    forEach false id (fun xs s => s ++ [xs]) [.array [5, 6, 7], .seq 2] [] = none ∧
    unrolledForEach false id (fun xs s => s ++ [xs]) [.array [5, 6, 7], .seq 2] [] = some (.ok [[5, 0], [6, 1]]) := by
  refine ⟨.cons (.array _) (.cons (.seq 2 _ rfl ?_) (.cons (.tuple _) .nil)), rfl, rfl, rfl⟩
  intro i x hx
  match i, hx with
  | 0, hx => cases hx; rfl
  | 1, hx => cases hx; rfl

/-- A vector where `std::size_t` is `unsigned int`: no call is made for the tuple that comes with it. -/
example : forEach true id (fun xs s => s ++ [xs]) [.tuple [1, 2, 3], .other true] [] = some (.ok []) ∧
    forEach false id (fun xs s => s ++ [xs]) [.tuple [1, 2, 3], .other true] [] = none := ⟨rfl, rfl⟩

/-- The order of the arguments decides whether `transform` compiles. -/
example : (transform false id (fun xs (s : Nat) => (xs, s)) [.tuple [1, 2, 3], .array [5, 6]] 0).isSome = true ∧
    (transform false id (fun xs (s : Nat) => (xs, s)) [.array [5, 6], .tuple [1, 2, 3]] 0).isSome = false := ⟨rfl, rfl⟩

end Verif.Like
