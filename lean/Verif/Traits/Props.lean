import Verif.Traits.Model

/-! # Tuple access, `forward_like`, `arity_v`, `function_traits`: the property theorems (C82, C85, C86, C87) -/

namespace Verif.Traits

section Access
variable {τ α : Type} [DecidableEq τ]

/-- `e` answers to the type `k`: it is its type, or what one of the index functions makes of its unqualified type. -/
def Answers (t : Tup τ α) (e : τ × α) (k : τ) : Prop := k = e.1 ∨ ∃ f ∈ t.funcs, k = f (t.bare e.1)

theorem mem_keys (t : Tup τ α) (e : τ × α) (k : τ) : k ∈ t.keys e ↔ Answers t e k := by
  unfold Tup.keys Answers
  simp only [List.mem_cons, List.mem_map]
  constructor
  · rintro (h | ⟨f, hf, h⟩)
    · exact .inl h
    · exact .inr ⟨f, hf, h.symm⟩
  · rintro (h | ⟨f, hf, h⟩)
    · exact .inl h
    · exact .inr ⟨f, hf, h.symm⟩

/-- **C82, index.** `get<I>` gives the element at `I`, and exists just for the indices of the tuple. -/
theorem C82_get_index (t : Tup τ α) (i : Nat) :
    (∀ pre e post, t.elems = pre ++ e :: post → pre.length = i → t.getIdx i = .ok e.2) ∧ (t.elems.length ≤ i → t.getIdx i = .ub) := by
  unfold Tup.getIdx
  constructor
  · intro pre e post he hi
    rw [he, ← hi]
    simp
  · intro h
    rw [List.getElem?_eq_none h]

/-- **C82, type.** `get<T>` gives the one element that answers to `T`, the same that its index gives; if none or several do
there is no such function. -/
theorem C82_get_type (t : Tup τ α) (k : τ) :
    (∀ pre e post, t.elems = pre ++ e :: post → Answers t e k → (∀ x ∈ pre ++ post, ¬ Answers t x k) →
      t.getTy k = .ok e.2 ∧ t.getIdx pre.length = .ok e.2) ∧
    ((∀ x ∈ t.elems, ¬ Answers t x k) → t.getTy k = .ub) ∧
    (∀ pre e mid e' post, t.elems = pre ++ e :: mid ++ e' :: post → Answers t e k → Answers t e' k → t.getTy k = .ub) := by
  have no : ∀ l : List (τ × α), (∀ x ∈ l, ¬ Answers t x k) → l.filter (fun e => decide (k ∈ t.keys e)) = [] := by
    intro l hl
    rw [List.filter_eq_nil_iff]
    intro x hx
    simp only [decide_eq_true_eq, mem_keys]
    exact hl x hx
  refine ⟨?_, ?_, ?_⟩
  · intro pre e post he ha hn
    refine ⟨?_, (C82_get_index t pre.length).1 pre e post he rfl⟩
    unfold Tup.getTy
    rw [he, List.filter_append, List.filter_cons, no pre fun x hx => hn x (List.mem_append_left _ hx),
      no post fun x hx => hn x (List.mem_append_right _ hx), if_pos (by simpa [mem_keys] using ha)]
    rfl
  · intro h
    unfold Tup.getTy
    rw [no _ h]
  · intro pre e mid e' post he ha ha'
    unfold Tup.getTy
    rw [he, List.filter_append, List.filter_append, List.filter_cons, List.filter_cons, if_pos (by simpa [mem_keys] using ha),
      if_pos (by simpa [mem_keys] using ha')]
    generalize pre.filter _ = a
    generalize mid.filter _ = b
    generalize post.filter _ = c
    match a with
    | [] => cases b <;> rfl
    | [_] => cases b <;> rfl
    | _ :: _ :: _ => rfl

/-- **C82, contains, partial.** In a tuple whose element types are unqualified, `contains_type` says whether some element answers
to the type — what `get<T>` needs, short of being ambiguous.  Missing: reference and const elements
(`C82_contains_reference_violated`). -/
theorem C82_contains_partial (t : Tup τ α) (hb : ∀ e ∈ t.elems, t.bare e.1 = e.1) (k : τ) :
    (t.containsType k = true ↔ ∃ e ∈ t.elems, Answers t e k) ∧ (t.containsType k = false → t.getTy k = .ub) ∧
    (∀ v, t.getTy k = .ok v → t.containsType k = true) := by
  have key : t.containsType k = true ↔ ∃ e ∈ t.elems, Answers t e k := by
    unfold Tup.containsType Answers
    simp only [Bool.or_eq_true, List.any_eq_true, decide_eq_true_eq]
    constructor
    · rintro (⟨f, hf, e, he, h⟩ | ⟨e, he, h⟩)
      · exact ⟨e, he, .inr ⟨f, hf, by rw [hb e he]; exact h.symm⟩⟩
      · exact ⟨e, he, .inl h⟩
    · rintro ⟨e, he, h | ⟨f, hf, h⟩⟩
      · exact .inr ⟨e, he, h⟩
      · exact .inl ⟨f, hf, e, he, by rw [← hb e he]; exact h.symm⟩
  have h2 : t.containsType k = false → t.getTy k = .ub := fun h =>
    (C82_get_type t k).2.1 fun x hx ha => by rw [key.mpr ⟨x, hx, ha⟩] at h; exact absurd h (by decide)
  refine ⟨key, h2, fun v hv => ?_⟩
  cases h : t.containsType k with
  | true => rfl
  | false => rw [h2 h] at hv; exact absurd hv (by simp)

/-- An element of reference type that answers, through an index function, to a type other than the function makes of the
reference itself: `get` finds it, `contains_type` denies it. -/
theorem C82_contains_reference_violated (ty : τ) (v : α) (f : τ → τ) (bare : τ → τ) (h1 : f (bare ty) ≠ f ty) (h2 : f (bare ty) ≠ ty) :
    let t : Tup τ α := ⟨[(ty, v)], [f], bare⟩
    t.getTy (f (bare ty)) = .ok v ∧ t.containsType (f (bare ty)) = false := by
  intro t
  refine ⟨((C82_get_type t (f (bare ty))).1 [] (ty, v) [] rfl (.inr ⟨f, by simp [t], rfl⟩) (by simp)).1, ?_⟩
  unfold Tup.containsType
  simp [t, h1.symm, h2]

/-- **C82, indices.** `apply_indices` keeps the elements and makes each reachable by what the functions make of its type. -/
theorem C82_apply_indices (t : Tup τ α) (fs : List (τ → τ)) (i : Nat) (f : τ → τ) (hf : f ∈ fs) (pre post : List (τ × α)) (e : τ × α)
    (he : t.elems = pre ++ e :: post) (hu : ∀ x ∈ pre ++ post, ¬ Answers (t.applyIndices fs) x (f (t.bare e.1))) :
    (t.applyIndices fs).getIdx i = t.getIdx i ∧ (t.applyIndices fs).getTy (f (t.bare e.1)) = .ok e.2 :=
  ⟨rfl, ((C82_get_type (t.applyIndices fs) _).1 pre e post he (.inr ⟨f, hf, rfl⟩) hu).1⟩

example : (Tup.mk [("int", 1), ("A", 2), ("B&", 3)] [fun s => s ++ "::key"] (fun s => if s = "B&" then "B" else s)).getTy "A::key" = .ok 2 := by decide
example : ∃ (f bare : String → String), f (bare "B&") ≠ f "B&" ∧ f (bare "B&") ≠ "B&" :=
  ⟨fun s => s ++ "::key", fun s => if s = "B&" then "B" else s, by decide, by decide⟩

end Access

/-! ## C85 -/

/-- What `std::forward_like<T>(x)` is, for an `x` of const type or not: const if either is, an lvalue if `T` is an lvalue
reference and otherwise an xvalue. -/
def stdForwardLike (t : Ty) (const : Bool) : Ty := ⟨t.const || const, if t.ref = .lvalue then .lvalue else .rvalue⟩

/-- **C85, partial.** For rvalue arguments, and whenever `T` is const or an lvalue reference, `forward_like` is
`std::forward_like`.  Missing: lvalue arguments for the other `T` (`C85_lvalue_violated`). -/
theorem C85_forward_like_partial (t : Ty) (lvalueArg const : Bool) (h : lvalueArg = false ∨ t.const = true ∨ t.ref = .lvalue) :
    forwardLike t (deduce lvalueArg const) = stdForwardLike t const := by
  obtain ⟨c, r⟩ := t
  cases c <;> cases r <;> cases lvalueArg <;> cases const <;> first | rfl | simp at h

/-- An lvalue argument — a member being forwarded — is not made an rvalue by an rvalue `T`. -/
theorem C85_lvalue_violated (t : Ty) (const : Bool) (h1 : t.const = false) (h2 : t.ref ≠ .lvalue) :
    forwardLike t (deduce true const) = ⟨const, .lvalue⟩ ∧ stdForwardLike t const = ⟨const, .rvalue⟩ := by
  obtain ⟨c, r⟩ := t
  simp only at h1 h2
  subst h1
  cases r <;> cases const <;> first | exact ⟨rfl, rfl⟩ | exact absurd rfl h2

/-! ## C86 -/

/-- `n` is the fewest arguments that `callable` accepts. -/
def Fewest (callable : Nat → Bool) (n : Nat) : Prop := callable n = true ∧ ∀ m < n, callable m = false

theorem genericArity_eq (callable : Nat → Bool) (fuel m n : Nat) (h1 : ∀ k, m ≤ k → k < n → callable k = false) (h2 : callable n = true)
    (hmn : m ≤ n) : genericArity callable fuel m = if n < m + fuel then .ok n else .ub := by
  induction fuel generalizing m with
  | zero => rw [genericArity, if_neg (by omega)]
  | succ fuel ih =>
    rw [genericArity]
    by_cases he : m = n
    · subst he; rw [if_pos h2, if_pos (by omega)]
    · rw [if_neg (by rw [h1 m (Nat.le_refl _) (by omega)]; decide), ih (m + 1) (fun k hk => h1 k (by omega)) (by omega)]
      congr 1
      exact propext ⟨fun h => by omega, fun h => by omega⟩

/-- **C86, the recursion.** A generic function's arity is the fewest arguments it accepts; a function with one parameter list has
the number of its parameters.  Both provided the compiler's depth suffices. -/
theorem C86_arity (limit : Nat) (callable : Nat → Bool) (n : Nat) (hn : Fewest callable n) :
    (∀ p, n < limit → arity limit callable (some p) = .ok p) ∧ (n < limit → arity limit callable none = .ok n) ∧
    (limit ≤ n → ∀ p, arity limit callable p = .ub) := by
  have h := genericArity_eq callable limit 0 n (fun k _ hk => hn.2 k hk) hn.1 (Nat.zero_le _)
  rw [Nat.zero_add] at h
  unfold arity
  refine ⟨fun p hl => ?_, fun hl => ?_, fun hl p => ?_⟩
  · rw [h, if_pos hl]; rfl
  · rw [h, if_pos hl]; rfl
  · rw [h, if_neg (by omega)]; rfl

/-- A function that accepts no number of arguments has no arity. -/
theorem C86_not_callable (limit : Nat) (callable : Nat → Bool) (h : ∀ n, callable n = false) (p : Option Nat) : arity limit callable p = .ub := by
  have : ∀ fuel m, genericArity callable fuel m = .ub := by
    intro fuel
    induction fuel with
    | zero => intro m; rfl
    | succ f ih => intro m; rw [genericArity, h m, if_neg (by decide), ih]
  unfold arity
  rw [this]
  rfl

/-- The type of a function, or of a pointer to it. -/
def IsFunction (s : Sig τ) (f : Fn τ) : Prop := f = .function s ∨ ∃ c v, f = .pointer c v s

/-- The type of a pointer to a member function of `cls` so qualified, or of a class with this one as its call operator. -/
def IsMember (cls : τ) (q : Quals) (s : Sig τ) (f : Fn τ) : Prop := f = .member cls q s ∨ f = .object cls q s ∨ f = .reference (.object cls q s)

/-- An lvalue reference to a type that is not const. -/
def Inout (t : QTy τ) : Prop := t.1 = ⟨false, .lvalue⟩

theorem fromAny_iff (t : QTy τ) : fromAny t = true ↔ ¬ Inout t := by
  obtain ⟨⟨c, r⟩, b⟩ := t
  unfold fromAny Inout
  cases c <;> cases r <;> simp

theorem sig_fewest (s : Sig τ) (h : ∀ t ∈ s.params, ¬ Inout t) (c : Nat → Bool) (hc : ∀ n, c n = s.callable n) : Fewest c s.params.length := by
  have ha : s.params.all fromAny = true := List.all_eq_true.mpr fun t ht => (fromAny_iff t).mpr (h t ht)
  refine ⟨?_, fun m hm => ?_⟩
  · rw [hc]; simp [Sig.callable, ha]
  · rw [hc]
    have : (m == s.params.length) = false := by simpa using Nat.ne_of_lt hm
    simp [Sig.callable, this]

theorem sig_uncallable (s : Sig τ) (t : QTy τ) (ht : t ∈ s.params) (hi : Inout t) (n : Nat) : s.callable n = false := by
  have : s.params.all fromAny = false := by
    rw [List.all_eq_false]
    exact ⟨t, ht, fun h => (fromAny_iff t).mp h hi⟩
  simp [Sig.callable, this]

/-- **C86, partial.** A function — by value, by pointer or by reference, `noexcept` or not —, a member function or a class with one
call operator that is not `noexcept` has the number of its parameters for its arity; a generic one the fewest arguments it
accepts.  This is also the default batch size of `for_each_n_args`.  Missing: parameters that are lvalue references to
non-const (`C86_lvalue_reference_violated`), and `noexcept` members and call operators (`C86_noexcept_violated`). -/
theorem C86_parameters_partial (limit : Nat) (s : Sig τ) (cls : τ) (q : Quals) (h : ∀ t ∈ s.params, ¬ Inout t) (hl : s.params.length < limit) :
    (∀ f, IsFunction s f → arityT limit f = .ok s.params.length ∧ ∀ lv, batchSize limit 0 lv f = .ok s.params.length) ∧
    (∀ f, IsMember cls q s f → s.noexc = false → arityT limit f = .ok s.params.length) ∧
    (∀ lv, s.noexc = false → batchSize limit 0 lv (.object cls q s) = .ok s.params.length) ∧
    (∀ accepts n, Fewest accepts n → n < limit → arityT limit (.generic accepts : Fn τ) = .ok n ∧
      ∀ lv, batchSize limit 0 lv (.generic accepts : Fn τ) = .ok n) := by
  have hf := sig_fewest s h s.callable fun _ => rfl
  have fn : ∀ p : Option Nat, (p = none ∨ p = some s.params.length) → arity limit s.callable p = .ok s.params.length := by
    rintro p (rfl | rfl)
    · exact (C86_arity limit _ _ hf).2.1 hl
    · exact (C86_arity limit _ _ hf).1 _ hl
  have tr : ∀ o : Option (τ × Quals), (s.traits o).map (·.args.length) = none ∨ (s.traits o).map (·.args.length) = some s.params.length := by
    intro o
    unfold Sig.traits
    split
    · exact .inl rfl
    · exact .inr rfl
  have mem : ∀ o : Option (τ × Quals), s.noexc = false → arity limit s.callableMember ((s.traits o).map (·.args.length)) = .ok s.params.length := by
    intro o hn
    have hm := sig_fewest s h s.callableMember fun n => by simp [Sig.callableMember, hn]
    have ht : (s.traits o).map (·.args.length) = some s.params.length := by simp [Sig.traits, hn]
    rw [ht]
    exact (C86_arity limit _ _ hm).1 _ hl
  refine ⟨?_, ?_, ?_, ?_⟩
  · rintro f (rfl | ⟨c, v, rfl⟩)
    · refine ⟨fn _ (tr none), fun lv => ?_⟩
      cases lv
      · exact fn _ (tr none)
      · exact fn none (.inl rfl)
    · refine ⟨fn _ (tr none), fun lv => ?_⟩
      cases lv
      · exact fn _ (tr none)
      · exact fn none (.inl rfl)
  · rintro f (rfl | rfl | rfl) hn
    · exact mem _ hn
    · exact mem _ hn
    · exact mem _ hn
  · intro lv hn
    cases lv
    · exact mem _ hn
    · exact mem _ hn
  · intro accepts n ha hn
    have hg := (C86_arity limit _ _ ha).2.1 hn
    refine ⟨hg, fun lv => ?_⟩
    cases lv
    · exact hg
    · exact hg

/-- A function with a parameter that is an lvalue reference to non-const, however it is given, has no arity: the count of its
parameters is known, but the search for a number of arguments it accepts, which is done all the same, does not end. -/
theorem C86_lvalue_reference_violated (limit : Nat) (s : Sig τ) (cls : τ) (q : Quals) (t : QTy τ) (ht : t ∈ s.params) (hi : Inout t) :
    (∀ f, IsFunction s f → arityT limit f = .ub ∧ ∀ lv, batchSize limit 0 lv f = .ub) ∧ (∀ f, IsMember cls q s f → arityT limit f = .ub) ∧
    (s.noexc = false → argsT (.function s) = some s.params) := by
  have h1 : ∀ n, s.callable n = false := sig_uncallable s t ht hi
  have h2 : ∀ n, s.callableMember n = false := fun n => by simp [Sig.callableMember, h1]
  refine ⟨?_, ?_, fun hn => by simp [argsT, functionTraits, Sig.traits, hn]⟩
  · rintro f (rfl | ⟨c, v, rfl⟩)
    · refine ⟨C86_not_callable _ _ h1 _, fun lv => ?_⟩
      cases lv
      · exact C86_not_callable _ _ h1 _
      · exact C86_not_callable limit _ h1 none
    · refine ⟨C86_not_callable _ _ h1 _, fun lv => ?_⟩
      cases lv
      · exact C86_not_callable _ _ h1 _
      · exact C86_not_callable limit _ h1 none
  · rintro f (rfl | rfl | rfl) <;> exact C86_not_callable _ _ h2 _

/-- Nor has a `noexcept` member function or class with a `noexcept` call operator. -/
theorem C86_noexcept_violated (limit : Nat) (s : Sig τ) (cls : τ) (q : Quals) (hn : s.noexc = true) (f : Fn τ) (hf : IsMember cls q s f) :
    arityT limit f = .ub := by
  have h : ∀ n, s.callableMember n = false := fun n => by simp [Sig.callableMember, hn]
  obtain rfl | rfl | rfl := hf <;> exact C86_not_callable _ _ h _

/-- Nor has a reference to a pointer to member function, with any parameters. -/
theorem C86_member_reference_violated (limit : Nat) (s : Sig τ) (cls : τ) (q : Quals) :
    arityT limit (.reference (.member cls q s)) = .ub ∧ argsT (.reference (.member cls q s)) = none :=
  ⟨C86_not_callable _ _ (fun _ => rfl) _, rfl⟩

example : Fewest (fun n => decide (2 ≤ n)) 2 := ⟨by decide, by decide⟩
example : arity 900 (fun n => n == 3) none = .ok 3 := by decide
example : arityT 900 (.object "L" ⟨true, false, .none⟩ ⟨(⟨false, .none⟩, "void"), [(⟨false, .none⟩, "int"), (⟨true, .lvalue⟩, "S")], false⟩) = .ok 2 := by
  decide
example : arityT 900 (.function ⟨(⟨false, .none⟩, "void"), [(⟨false, .lvalue⟩, "int")], false⟩) = .ub := by
  exact (C86_lvalue_reference_violated 900 _ "" ⟨false, false, .none⟩ (⟨false, .lvalue⟩, "int") (by simp) rfl).1 _ (.inl rfl) |>.1

/-! ## C87 -/

/-- **C87, partial.** Of a function type or pointer, `function_traits` gives the return type, the parameter types in order and no
object type; of a member function pointer or class with one call operator, also by reference, the same and the object type with
the qualification of the member function.  Parameters by number are the parameters counted from 0, and there are none beyond.
Missing: `noexcept` (`C87_noexcept_violated`) and references to functions (`C87_reference_violated`). -/
theorem C87_function_traits_partial (s : Sig τ) (hn : s.noexc = false) (cls : τ) (q : Quals) (decay : QTy τ → QTy τ) :
    (∀ f, IsFunction s f → objArgT f = some none) ∧ (∀ f, IsMember cls q s f → objArgT f = some (some (cls, q))) ∧
    (∀ f, IsFunction s f ∨ IsMember cls q s f → returnT f = some s.ret ∧ argsT f = some s.params ∧
      decayedArgsT decay f = some (s.params.map decay) ∧
      (∀ pre t post, s.params = pre ++ t :: post → nthArgT f pre.length = some t ∧ decayedNthArgT decay f pre.length = some (decay t)) ∧
      ∀ n, s.params.length ≤ n → nthArgT f n = none ∧ decayedNthArgT decay f n = none) := by
  have ho : objType cls q = (cls, q) := by
    obtain ⟨c, v, r⟩ := q
    cases c <;> cases v <;> cases r <;> rfl
  have hs : ∀ o, s.traits o = some ⟨s.ret, s.params, o⟩ := fun o => by simp [Sig.traits, hn]
  have h1 : ∀ f, IsFunction s f → functionTraits f = some ⟨s.ret, s.params, none⟩ := by
    rintro f (rfl | ⟨c, v, rfl⟩) <;> exact hs _
  have h2 : ∀ f, IsMember cls q s f → functionTraits f = some ⟨s.ret, s.params, some (cls, q)⟩ := by
    rintro f (rfl | rfl | rfl) <;> simp only [functionTraits, hs, ho]
  refine ⟨fun f hf => by simp [objArgT, h1 f hf], fun f hf => by simp [objArgT, h2 f hf], fun f hf => ?_⟩
  have h3 : ∃ o, functionTraits f = some ⟨s.ret, s.params, o⟩ := by
    rcases hf with hf | hf
    · exact ⟨_, h1 f hf⟩
    · exact ⟨_, h2 f hf⟩
  obtain ⟨o, h3⟩ := h3
  refine ⟨by simp [returnT, h3], by simp [argsT, h3], by simp [decayedArgsT, h3], ?_, ?_⟩
  · intro pre t post hp
    have : nthArgT f pre.length = some t := by simp [nthArgT, h3, hp]
    exact ⟨this, by simp [decayedNthArgT, this]⟩
  · intro n hl
    have : nthArgT f n = none := by simp [nthArgT, h3, hl]
    exact ⟨this, by simp [decayedNthArgT, this]⟩

/-- A `noexcept` function, member function or call operator has no traits. -/
theorem C87_noexcept_violated (s : Sig τ) (hn : s.noexc = true) (cls : τ) (q : Quals) (f : Fn τ) (hf : IsFunction s f ∨ IsMember cls q s f) :
    returnT f = none ∧ argsT f = none ∧ objArgT f = none ∧ ∀ n, nthArgT f n = none := by
  have h : functionTraits f = none := by
    rcases hf with (rfl | ⟨c, v, rfl⟩) | (rfl | rfl | rfl) <;> simp [functionTraits, Sig.traits, hn]
  simp [returnT, argsT, objArgT, nthArgT, h]

/-- Neither has a reference to a function or pointer, although one to a class has. -/
theorem C87_reference_violated (s : Sig τ) (cls : τ) (q : Quals) (f : Fn τ) (hf : IsFunction s f) :
    returnT (.reference f) = none ∧ argsT (.reference f) = none ∧
    (s.noexc = false → returnT (.reference (.object cls q s)) = some s.ret ∧ argsT (.reference (.object cls q s)) = some s.params) := by
  refine ⟨?_, ?_, fun hn => by simp [returnT, argsT, functionTraits, Sig.traits, hn]⟩ <;>
  · obtain rfl | ⟨c, v, rfl⟩ := hf <;> rfl

example : objArgT (.member "S" ⟨true, false, .rvalue⟩ ⟨(⟨false, .none⟩, "void"), [], false⟩) = some (some ("S", ⟨true, false, .rvalue⟩)) := by decide
example : nthArgT (.function ⟨(⟨false, .none⟩, "void"), [(⟨false, .none⟩, "int"), (⟨false, .lvalue⟩, "S")], false⟩) 1 =
    some (⟨false, .lvalue⟩, "S") := by decide

end Verif.Traits
