/-!
# Outcomes of C++ operations

Every operation of the library that can have undefined behaviour, or that can call a
panic handler which does not return, is modelled by a function into `Outcome`.
-/

namespace Verif

/-- Result of running a piece of C++: a value, undefined behaviour, or a call to a panic
handler that never returns (`STDX_PANIC`, /repo/include/stdx/panic.hpp:32-36). -/
inductive Outcome (α : Type u) where
  | ok (a : α)
  | ub
  | panic
  deriving Repr, DecidableEq

namespace Outcome

/-- Sequencing: undefined behaviour and a non-returning panic end the computation. -/
def bind {α : Type u} {β : Type v} (x : Outcome α) (f : α → Outcome β) : Outcome β :=
  match x with
  | ok a => f a
  | ub => ub
  | panic => panic

instance : Monad Outcome where
  pure := ok
  bind := bind

/-- `isOk x`: the computation ended normally. -/
def isOk {α : Type u} : Outcome α → Bool
  | ok _ => true
  | _ => false

@[simp] theorem ok_bind {α β : Type u} (a : α) (f : α → Outcome β) :
    (Outcome.ok a >>= f) = f a := rfl
@[simp] theorem ub_bind {α β : Type u} (f : α → Outcome β) :
    ((Outcome.ub : Outcome α) >>= f) = Outcome.ub := rfl
@[simp] theorem panic_bind {α β : Type u} (f : α → Outcome β) :
    ((Outcome.panic : Outcome α) >>= f) = Outcome.panic := rfl
@[simp] theorem pure_eq_ok {α : Type u} (a : α) : (pure a : Outcome α) = Outcome.ok a := rfl
@[simp] theorem map_ok {α β : Type u} (f : α → β) (a : α) :
    (f <$> (Outcome.ok a)) = Outcome.ok (f a) := rfl
@[simp] theorem map_ub {α β : Type u} (f : α → β) :
    (f <$> (Outcome.ub : Outcome α)) = Outcome.ub := rfl
@[simp] theorem map_panic {α β : Type u} (f : α → β) :
    (f <$> (Outcome.panic : Outcome α)) = Outcome.panic := rfl

theorem bind_eq_ok {α β : Type u} {x : Outcome α} {f : α → Outcome β} {b : β} :
    (x >>= f) = ok b ↔ ∃ a, x = ok a ∧ f a = ok b := by
  cases x <;> simp

/-- Left-to-right run of a list of operations on a state. -/
def runOps {σ : Type u} {ο : Type v} (step : σ → ο → Outcome σ) : σ → List ο → Outcome σ
  | s, [] => ok s
  | s, o :: os =>
    match step s o with
    | ok s' => runOps step s' os
    | ub => ub
    | panic => panic

end Outcome
end Verif

namespace Verif

/-! ## `std::size_t`

`std::size_t` is modelled as a natural number below `2^64` with wrapping increment and
decrement (unsigned arithmetic never has undefined behaviour). -/

/-- Number of values of `std::size_t` (64-bit). -/
def szMod : Nat := 18446744073709551616

/-- `++x` on a `std::size_t`. -/
def szInc (x : Nat) : Nat := if x = 18446744073709551615 then 0 else x + 1

/-- `--x` (or `x - 1`) on a `std::size_t`. -/
def szDec (x : Nat) : Nat := if x = 0 then 18446744073709551615 else x - 1

theorem szMod_eq : szMod = 2 ^ 64 := rfl

theorem szMod_lit : szMod = 18446744073709551616 := rfl

/-- `szInc` is addition of one modulo `2^64`. -/
theorem szInc_mod {x : Nat} (h : x < szMod) : szInc x = (x + 1) % 2 ^ 64 := by
  unfold szInc; rw [szMod_lit] at h; split <;> omega

/-- `szDec` is subtraction of one modulo `2^64`. -/
theorem szDec_mod {x : Nat} (h : x < szMod) : szDec x = (x + (2 ^ 64 - 1)) % 2 ^ 64 := by
  unfold szDec; rw [szMod_lit] at h; split <;> omega

theorem szInc_of_lt {x n : Nat} (h : x < n) (hn : n < szMod) : szInc x = x + 1 := by
  unfold szInc; rw [szMod_lit] at hn; rw [if_neg (by omega)]

theorem szDec_of_pos {x : Nat} (h : 0 < x) : szDec x = x - 1 := by
  unfold szDec; rw [if_neg (by omega)]

theorem szInc_szDec {x : Nat} (h : x < szMod) : szInc (szDec x) = x := by
  unfold szInc szDec; rw [szMod_lit] at *
  by_cases h0 : x = 0
  · simp [h0]
  · rw [if_neg h0, if_neg (by omega)]; omega

/-- Array element read: `ub` outside the bounds. -/
def arrGet {α : Type u} (a : List α) (i : Nat) : Outcome α :=
  match a[i]? with
  | some x => .ok x
  | none => .ub

/-- Array element write: `ub` outside the bounds. -/
def arrSet {α : Type u} (a : List α) (i : Nat) (x : α) : Outcome (List α) :=
  if i < a.length then .ok (a.set i x) else .ub

theorem arrGet_ok {α : Type u} {a : List α} {i : Nat} {x : α} :
    arrGet a i = .ok x ↔ a[i]? = some x := by
  unfold arrGet; cases a[i]? <;> simp

@[simp] theorem arrSet_of_lt {α : Type u} {a : List α} {i : Nat} {x : α} (h : i < a.length) :
    arrSet a i x = .ok (a.set i x) := by simp [arrSet, h]

end Verif
