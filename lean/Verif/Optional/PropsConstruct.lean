import Verif.Optional.Construct
import Verif.Optional.Props

/-!
# How `stdx::optional` initialises its value (C42)
-/

namespace Verif.Opt

variable {A τ T : Type}

/-! ## `std::optional`, as far as it is compared with -/

/-- `std::optional` initialises with parentheses everywhere: what its in-place constructor and `emplace` contain. -/
def stdInit (I : Init A τ T) (args : List A) : Option T := if I.parenOk (args.map I.ty) then some (I.paren args) else none

/-- `std::optional::value_or` converts with `static_cast`. -/
def stdValueOr (I : Init A τ T) (o : Option T) (d : A) : Option T := (stdInit I [d]).map fun v => o.getD v

/-- The two forms of initialisation agree on these arguments. -/
def Init.Agrees (I : Init A τ T) (args : List A) : Prop :=
  I.braceOk (args.map I.ty) = I.parenOk (args.map I.ty) ∧ I.brace args = I.paren args

/-- **C42, construction from arguments.** Where braces and parentheses mean the same for the value type, the constructors, `emplace`
and `value_or` compile exactly if those of `std::optional` do and give the same value (if it is not the tombstone). -/
theorem C42_construct_as_std_partial (I : Init A τ T) (V : Val T) (args : List A) (u : A) (o : Optional T)
    (hargs : I.Agrees args) (hu : I.Agrees [u]) :
    (inPlace I args).map (·.val) = stdInit I args ∧
    (ofArg I u).map (·.val) = stdInit I [u] ∧
    (emplaceArgs I args).map (·.val) = stdInit I args ∧
    valueOrArg I V o u = stdValueOr I (view V o) u ∧
    (∀ r, inPlace I args = some r → V.Proper (I.paren args) → view V r = some (I.paren args)) := by
  obtain ⟨h1, h2⟩ := hargs
  obtain ⟨h3, h4⟩ := hu
  simp only [List.map_cons, List.map_nil] at h3
  refine ⟨?_, ?_, ?_, ?_, ?_⟩
  · unfold inPlace stdInit
    rw [h1, h2]
    split <;> rfl
  · unfold ofArg stdInit
    simp only [List.map_cons, List.map_nil]
    rw [h3, h4, Bool.and_self]
    split <;> rfl
  · unfold emplaceArgs stdInit
    split <;> rfl
  · unfold valueOrArg stdValueOr stdInit
    simp only [List.map_cons, List.map_nil]
    rw [h3, h4]
    split
    · cases h : hasValue V o <;> simp [view, h, value]
    · rfl
  · intro r hr hp
    unfold inPlace at hr
    split at hr
    · simp only [Option.some.injEq] at hr
      subst hr
      rw [h2]
      exact view_proper hp
    · cases hr

/-- `std::vector<int>`: with parentheses a length and a value, with braces the elements. -/
def vectorInit : Init Nat Unit (List Nat) where
  ty _ := ()
  parenOk ts := decide (ts.length = 1 ∨ ts.length = 2)
  braceOk _ := true
  paren
    | [n] => List.replicate n 0
    | [n, v] => List.replicate n v
    | _ => []
  brace args := args

/-- **C42 (negation), lists of elements.** For a type like `std::vector<int>` the in-place constructor and `emplace` do different things
with the same arguments: `optional(in_place, n, v)` holds the elements `n` and `v`, where `emplace(n, v)` and
`std::optional(in_place, n, v)` hold `n` copies of `v`; and `optional(n)` holds the element `n`, not `n` zeros. -/
theorem C42_braces_violated (n v : Nat) (hn : n ≠ 2) :
    (inPlace vectorInit [n, v]).map (·.val) = some [n, v] ∧
    (emplaceArgs vectorInit [n, v]).map (·.val) = some (List.replicate n v) ∧
    stdInit vectorInit [n, v] = some (List.replicate n v) ∧ [n, v] ≠ List.replicate n v ∧
    (ofArg vectorInit n).map (·.val) = some [n] ∧ stdInit vectorInit [n] = some (List.replicate n 0) ∧
    [n] ≠ List.replicate n 0 := by
  refine ⟨rfl, rfl, rfl, fun h => hn ?_, rfl, rfl, fun h => ?_⟩
  · have := congrArg List.length h
    simp at this
    omega
  · have h1 := congrArg List.length h
    simp at h1
    subst h1
    simp at h

/-- The arithmetic types. -/
inductive Num
  | int (signed : Bool) (w : Nat)
  | float (p : Nat)
deriving DecidableEq

/-- Whether a conversion of a value that is not a constant is narrowing ([dcl.init.list]): to an integer from a floating type, to a
floating type from an integer or a larger floating type, and to an integer type that does not have all the values. -/
def narrows : Num → Num → Bool
  | .float _, .int _ _ => true
  | .int _ _, .float _ => true
  | .float p, .float q => decide (q < p)
  | .int s w, .int s' w' => !(if s = s' then decide (w ≤ w') else if s then false else decide (w < w'))

/-- An arithmetic type `t`: `conv` converts, and braces reject a narrowing conversion. -/
def numInit (t : Num) (A T : Type) (ty : A → Num) (conv : A → T) (zero : T) : Init A Num T where
  ty := ty
  parenOk ts := decide (ts.length ≤ 1)
  braceOk
    | [] => true
    | [u] => !narrows u t
    | _ => false
  paren
    | [a] => conv a
    | _ => zero
  brace
    | [a] => conv a
    | _ => zero

/-- **C42 (negation), numbers.** An optional of an arithmetic type can be constructed from, or given as default of `value_or`, a variable of
another arithmetic type exactly if the conversion is not narrowing; `std::optional` accepts all of them, and so does `emplace`. -/
theorem C42_narrowing_violated (t : Num) (A T : Type) (ty : A → Num) (conv : A → T) (zero : T) (V : Val T) (o : Optional T) (u : A) :
    let I := numInit t A T ty conv zero
    ((ofArg I u).isSome ↔ narrows (ty u) t = false) ∧ ((valueOrArg I V o u).isSome ↔ narrows (ty u) t = false) ∧
    stdInit I [u] = some (conv u) ∧ (emplaceArgs I [u]).map (·.val) = some (conv u) := by
  intro I
  refine ⟨?_, ?_, rfl, rfl⟩
  · show (if (decide (1 ≤ 1) && !narrows (ty u) t) = true then some _ else none).isSome ↔ _
    cases narrows (ty u) t <;> simp
  · show (if (!narrows (ty u) t) = true then some _ else none).isSome ↔ _
    cases narrows (ty u) t <;> simp

/-- `optional<double>(i)` with an `int` variable does not compile; `optional<long>(i)` does. -/
example : narrows (.int true 32) (.float 53) = true ∧ narrows (.int true 32) (.int true 64) = false ∧
    narrows (.int false 32) (.int true 32) = true := by decide

/-- A type for which the two forms agree: a pair of numbers. -/
example : (⟨fun _ => (), fun ts => decide (ts.length = 2), fun ts => decide (ts.length = 2), fun l => (l.headD 0, l.getLastD 0),
    fun l => (l.headD 0, l.getLastD 0)⟩ : Init Nat Unit (Nat × Nat)).Agrees [3, 4] := ⟨rfl, rfl⟩

/-! ## Assignment of a value -/

/-- `std::optional`: a value is accepted if the value type can be constructed and assigned from it. (For a scalar of the same type by
conversion to an optional, otherwise by assignment.) -/
def stdAssign (a : AssignArg) (v : T) : Option T := if a.constructible && a.assignable then some v else none

/-- **C42, assignment of a value.** To an optional of a scalar, or from another type than the value type, a value can be assigned exactly
if it can be to a `std::optional`, with the same effect (if it is not the tombstone). -/
theorem C42_assign_as_std_partial (a : AssignArg) (V : Val T) (v : T) (h : a.scalar = true ∨ a.same = false) :
    (assignArg a v).map (·.val) = stdAssign a v ∧
    ∀ r, assignArg a v = some r → V.Proper v → view V r = some v := by
  obtain ⟨sc, sa, c, as⟩ := a
  constructor
  · simp only [assignArg, AssignArg.takesPart, stdAssign] at *
    rcases h with rfl | rfl <;> cases c <;> cases as <;> simp
  · intro r hr hp
    unfold assignArg at hr
    split at hr
    · simp only [Option.some.injEq] at hr
      subst hr
      exact view_proper hp
    · cases hr

/-- **C42 (negation), class types.** A value of the value type itself can never be assigned to an optional of a class type; to a
`std::optional` it can whenever the type can be copied or moved. -/
theorem C42_assign_class_violated (a : AssignArg) (v : T) (hs : a.scalar = false) (hm : a.same = true) :
    assignArg a v = none ∧ (a.constructible = true → a.assignable = true → stdAssign a v = some v) := by
  constructor
  · simp [assignArg, AssignArg.takesPart, hs, hm]
  · intro h1 h2
    simp [stdAssign, h1, h2]

/-- **C42 (negation), empty braces.** `o = {}` makes an optional of a scalar hold zero, if that is not the tombstone, where a
`std::optional` is left without a value; for a class type it disengages. -/
theorem C42_assign_braces_violated (V : Val T) (zero : T) (hz : V.Proper zero) (ht : V.Reflexive) :
    view V (assignBraces true V zero) = some zero ∧ view V (assignBraces false V zero) = none :=
  ⟨view_proper hz, view_empty ht⟩

/-- An optional whose tombstone is 7, assigned `{}`. -/
example : view (⟨fun a b => a == b, fun a b => decide (a < b), 7⟩ : Val Nat) (assignBraces true ⟨fun a b => a == b, fun a b => decide (a < b), 7⟩ 0) = some 0 := by
  decide

/-! ## Lifetime -/

/-- Operations that do not throw and construct from something else than the old value. -/
def Calm : LOp T → Prop
  | .read => True
  | .emplace make => ∃ v, ∀ s, make s = .ok (some v)
  | .reset tomb => ∃ v, tomb = some v

/-- The value the last `emplace` or `reset` of a calm history makes, otherwise the first one. -/
def LastMade : List (LOp T) → T → T → Prop
  | [], v, r => r = v
  | .read :: ops, v, r => LastMade ops v r
  | .emplace make :: ops, _, r => ∃ v', make .dead = .ok (some v') ∧ LastMade ops v' r
  | .reset tomb :: ops, _, r => ∃ v', tomb = some v' ∧ LastMade ops v' r

/-- **C42, lifetime.** In every history of operations that do not throw and do not construct from the old value, every object that is read
or destroyed is alive, and the last one is the value made last. -/
theorem C42_lifetime_partial (ops : List (LOp T)) (hc : ∀ op ∈ ops, Calm op) (v : T) :
    ∃ r, life ops (.alive v) = .ok r ∧ LastMade ops v r := by
  induction ops generalizing v with
  | nil => exact ⟨v, rfl, rfl⟩
  | cons op ops ih =>
    have hr := fun op h => hc op (List.mem_cons_of_mem _ h)
    cases op with
    | read => exact ih hr v
    | emplace make =>
      obtain ⟨v', hv'⟩ := hc _ (List.mem_cons_self ..)
      obtain ⟨r, h1, h2⟩ := ih hr v'
      refine ⟨r, ?_, v', hv' _, h2⟩
      rw [← h1]
      show (do life ops (← (do return (← (do
        let s ← Outcome.ok Slot.dead
        match ← make s with
        | some v => return After.mk (.alive v) false
        | none => return ⟨s, true⟩)).slot))) = _
      simp only [Outcome.ok_bind, hv']
      rfl
    | reset tomb =>
      obtain ⟨v', hv'⟩ := hc _ (List.mem_cons_self ..)
      obtain ⟨r, h1, h2⟩ := ih hr v'
      subst hv'
      exact ⟨r, h1, v', rfl, h2⟩

/-- A history on which nothing alive is left is undefined, however it goes on. -/
theorem life_dead (ops : List (LOp T)) : life ops .dead = .ub := by
  cases ops with
  | nil => rfl
  | cons op ops => cases op <;> rfl

theorem life_append (pre post : List (LOp T)) (hc : ∀ op ∈ pre, Calm op) (v : T) :
    ∃ r, life (pre ++ post) (.alive v) = life post (.alive r) := by
  induction pre generalizing v with
  | nil => exact ⟨v, rfl⟩
  | cons op ops ih =>
    have hr := fun op h => hc op (List.mem_cons_of_mem _ h)
    cases op with
    | read => exact ih hr v
    | emplace make =>
      obtain ⟨v', hv'⟩ := hc _ (List.mem_cons_self ..)
      obtain ⟨r, h1⟩ := ih hr v'
      refine ⟨r, ?_⟩
      rw [← h1]
      show (do life (ops ++ post) (← (do return (← (do
        let s ← Outcome.ok Slot.dead
        match ← make s with
        | some v => return After.mk (.alive v) false
        | none => return ⟨s, true⟩)).slot))) = _
      simp only [Outcome.ok_bind, hv']
      rfl
    | reset tomb =>
      obtain ⟨v', hv'⟩ := hc _ (List.mem_cons_self ..)
      obtain ⟨r, h1⟩ := ih hr v'
      subst hv'
      exact ⟨r, h1⟩

/-- **C42 (negation), arguments that refer to the contained value.** After any such history `o.emplace(*o)`, or any construction that reads
the old value, reads an object that has been destroyed. -/
theorem C42_emplace_self_undefined (pre post : List (LOp T)) (hc : ∀ op ∈ pre, Calm op) (v : T) (k : T → Outcome (Option T)) :
    life (pre ++ .emplace (fun s => readSlot s >>= k) :: post) (.alive v) = .ub := by
  obtain ⟨r, h⟩ := life_append pre (.emplace (fun s => readSlot s >>= k) :: post) hc v
  rw [h]
  rfl

/-- **C42 (negation), exceptions.** If the construction in one `emplace` throws, or that of the tombstone in one `reset`, the history is
undefined whatever is done before and after, even if nothing is: the optional destroys, at the latest at the end of its own life, an
object that is not alive. (`std::optional` is left without a value.) -/
theorem C42_throwing_emplace_undefined (pre post : List (LOp T)) (hc : ∀ op ∈ pre, Calm op) (v : T) :
    life (pre ++ .emplace (fun _ => .ok none) :: post) (.alive v) = .ub ∧
    life (pre ++ .reset none :: post) (.alive v) = .ub := by
  constructor
  · obtain ⟨r, h⟩ := life_append pre (.emplace (fun _ => .ok none) :: post) hc v
    rw [h]
    exact life_dead post
  · obtain ⟨r, h⟩ := life_append pre (.reset none :: post) hc v
    rw [h]
    exact life_dead post

/-- **C42, exceptions.** `emplace` and `reset` throw exactly when the constructor they call does, and exactly then the optional is left
without an object. -/
theorem C42_throws_iff_dead (v : T) (a : After T) :
    (∀ make, emplaceSlot make (.alive v) = .ok a → (a.threw = true ↔ make .dead = .ok none) ∧ (a.threw = true ↔ a.slot = .dead)) ∧
    (∀ tomb, resetSlot tomb (.alive v) = .ok a → (a.threw = true ↔ tomb = none) ∧ (a.threw = true ↔ a.slot = .dead)) := by
  constructor
  · intro make h
    simp only [emplaceSlot, destroy, Outcome.ok_bind] at h
    cases hm : make .dead with
    | ub => simp [hm] at h
    | panic => simp [hm] at h
    | ok r =>
      cases r <;> simp [hm] at h <;> subst h <;> simp
  · intro tomb h
    cases tomb <;> simp [resetSlot, destroy] at h <;> subst h <;> simp

/-- A calm history. -/
example : (∀ op ∈ [LOp.emplace (fun _ => .ok (some 5)), .read, .reset (some 0)], Calm op) ∧
    life [LOp.emplace (fun _ => .ok (some 5)), .read, .reset (some 0)] (.alive 1) = .ok 0 := by
  refine ⟨?_, rfl⟩
  intro op h
  simp only [List.mem_cons, List.not_mem_nil, or_false] at h
  rcases h with rfl | rfl | rfl
  · exact ⟨5, fun _ => rfl⟩
  · trivial
  · exact ⟨0, rfl⟩

end Verif.Opt
