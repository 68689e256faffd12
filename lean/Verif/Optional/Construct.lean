import Verif.Optional.Model

/-!
# How `stdx::optional` initialises its value (/repo/include/stdx/optional.hpp)

The constructors and `value_or` initialise with braces, `emplace` with parentheses.  A type is given by what the two forms of initialisation do.  `emplace` and `reset` destroy the contained value
and then create another in its place; an object whose lifetime has ended is a state of the model here, and using it is undefined.
-/

namespace Verif.Opt

/-- How a type `T` is initialised from arguments `A` whose types are `τ`: whether `T(args...)` and `T{args...}` are well-formed,
which is a matter of types only, and what they give. (The forms used in optional.hpp:109, 115, 179, 183, 189.) -/
structure Init (A τ T : Type) where
  ty : A → τ
  parenOk : List τ → Bool
  braceOk : List τ → Bool
  paren : List A → T
  brace : List A → T

variable {A τ T : Type}

/-- `optional(u)`, optional.hpp:111-115: accepted if `is_constructible_v<T, U &&>`, which is about parentheses, then
initialised with braces. `none`: does not compile. -/
def ofArg (I : Init A τ T) (u : A) : Option (Optional T) :=
  if I.parenOk [I.ty u] && I.braceOk [I.ty u] then some ⟨I.brace [u]⟩ else none

/-- `optional(in_place, args...)`, optional.hpp:107-109. -/
def inPlace (I : Init A τ T) (args : List A) : Option (Optional T) :=
  if I.braceOk (args.map I.ty) then some ⟨I.brace args⟩ else none

/-- `emplace(args...)`, optional.hpp:186-191. -/
def emplaceArgs (I : Init A τ T) (args : List A) : Option (Optional T) :=
  if I.parenOk (args.map I.ty) then some ⟨I.paren args⟩ else none

/-- `value_or(d)`, optional.hpp:176-184: `T{d}`. -/
def valueOrArg (I : Init A τ T) (V : Val T) (o : Optional T) (d : A) : Option T :=
  if I.braceOk [I.ty d] then some (if hasValue V o then o.val else I.brace [d]) else none

/-! ## Assignment of a value -/

/-- What `o = u` is decided by: whether the value type is a scalar type, whether `std::decay_t<U>` is the value type, and whether the value
type can be constructed and assigned from `U` (optional.hpp:122-127). -/
structure AssignArg where
  scalar : Bool
  same : Bool
  constructible : Bool
  assignable : Bool
  deriving DecidableEq

/-- Whether the assignment operator for values takes part, optional.hpp:122-128 (`U` is not an optional of the same type). -/
def AssignArg.takesPart (a : AssignArg) : Bool := a.constructible && a.assignable && (a.scalar || !a.same)

/-- `o = u`, optional.hpp:122-131, `assigned` the value after `val = u`. The other assignment operators take an optional or `nullopt` (117-120
and the implicit ones), and no conversion of a value to an optional is implicit (105-115). `none`: does not compile. -/
def assignArg (a : AssignArg) (assigned : T) : Option (Optional T) := if a.takesPart then some ⟨assigned⟩ else none

/-- `o = {}`: for the operator of optional.hpp:122-131 `U` is the value type by default and its parameter is initialised from the braces, for a
scalar with zero; this needs no conversion by a constructor of `optional` and is preferred. Otherwise the braces make an empty optional
(104), which is assigned. -/
def assignBraces (scalar : Bool) (V : Val T) (zero : T) : Optional T :=
  if (⟨scalar, true, true, true⟩ : AssignArg).takesPart then ⟨zero⟩ else empty V

/-! ## Lifetime -/

/-- The member `val`, optional.hpp:99: an object, or storage whose object has been destroyed. -/
inductive Slot (T : Type) where
  | alive (v : T)
  | dead

/-- What an operation of optional.hpp:186-196 leaves and whether it threw. -/
structure After (T : Type) where
  slot : Slot T
  threw : Bool

/-- `val.~value_type()`, optional.hpp:188, 194, and at the end of the optional's life. -/
def destroy : Slot T → Outcome (Slot T)
  | .alive _ => .ok .dead
  | .dead => .ub

/-- Reading `val`, as every observer does (optional.hpp:133-184). -/
def readSlot : Slot T → Outcome T
  | .alive v => .ok v
  | .dead => .ub

/-- `emplace(args...)`, optional.hpp:186-191: the value is destroyed, then constructed from the arguments. `make` is the
constructor with its arguments: it may read the old value through a reference among them, and may throw (`none`). -/
def emplaceSlot (make : Slot T → Outcome (Option T)) (s : Slot T) : Outcome (After T) := do
  let s ← destroy s
  match ← make s with
  | some v => return ⟨.alive v, false⟩
  | none => return ⟨s, true⟩

/-- `reset()`, optional.hpp:193-196: the tombstone may throw too when it is made or moved. -/
def resetSlot (tomb : Option T) (s : Slot T) : Outcome (After T) := do
  let s ← destroy s
  match tomb with
  | some v => return ⟨.alive v, false⟩
  | none => return ⟨s, true⟩

/-- The operations of optional.hpp:133-196 as far as lifetime goes: reading, `emplace` and `reset`. The caller handles what is thrown. -/
inductive LOp (T : Type) where
  | read
  | emplace (make : Slot T → Outcome (Option T))
  | reset (tomb : Option T)

/-- One operation: the slot it leaves (optional.hpp:133-196). -/
def LOp.step : LOp T → Slot T → Outcome (Slot T)
  | .read, s => do
    let _ ← readSlot s
    return s
  | .emplace make, s => do return (← emplaceSlot make s).slot
  | .reset tomb, s => do return (← resetSlot tomb s).slot

/-- A history of an optional that holds `v` at first and is destroyed at the end (optional.hpp:99-196): the value that is destroyed. -/
def life : List (LOp T) → Slot T → Outcome T
  | [], s => do
    let v ← readSlot s
    let _ ← destroy s
    return v
  | op :: ops, s => do life ops (← op.step s)

end Verif.Opt
