import Verif.Cached.Model

/-!
# Several threads that use one `latched` object (/repo/include/stdx/latched.hpp)

The member functions of `latched` are `const` (latched.hpp:19-45) but `populate()` writes to `mutable` members (latched.hpp:48-55)
without any synchronisation.  A thread is a program of reads and writes of the optional's flag and of its value; the threads
take their steps in any order.  Each step is recorded, so that data races can be looked for.
The callable here is a function of a state that all calls share; it does not throw and is called in one step.
-/

namespace Verif.Cached

/-- The two memory locations of the optional, latched.hpp:55. -/
inductive Loc where
  | flag
  | value
  deriving DecidableEq

/-- A read or a write of a location by a thread. -/
structure Event where
  thread : Nat
  loc : Loc
  write : Bool
  deriving DecidableEq

/-- What a thread has still to do; at the end, the results of its operations. -/
inductive TProg (α : Type) where
  | done (rs : List (Res α))
  | readFlag (k : Bool → TProg α)
  | readValue (k : α → TProg α)
  | call (k : α → TProg α)
  | writeValue (a : α) (k : TProg α)
  | writeFlag (k : TProg α)

/-- The member functions that a constant object has, latched.hpp:19-45. -/
inductive COp where
  | hasValue
  | access
  deriving DecidableEq

/-- One operation and what follows it: `has_value()`, latched.hpp:19-24, or an access with its `populate()`, latched.hpp:26-52: the
flag is read; if it is not set, the function is called, its value stored, and the flag set; then the value is read. -/
def opProg {α : Type} (k : Res α → TProg α) : COp → TProg α
  | .hasValue => .readFlag (fun b => k (.flag b))
  | .access => .readFlag (fun b =>
      if b then .readValue (fun a => k (.value a))
      else .call (fun a => .writeValue a (.writeFlag (.readValue (fun v => k (.value v))))))

/-- A thread that performs operations (latched.hpp:19-45) one after the other. -/
def threadOf {α : Type} : List COp → List (Res α) → TProg α
  | [], acc => .done acc
  | op :: ops, acc => opProg (fun r => threadOf ops (acc ++ [r])) op

/-- The optional (latched.hpp:55), the state of the callable, the number of calls, the threads, and what has been recorded. -/
structure TSys (σ α : Type) where
  flag : Bool
  value : Option α
  fs : σ
  calls : Nat
  threads : List (TProg α)
  trace : List Event

variable {σ α : Type}

/-- Thread `t` takes one step of latched.hpp:19-52; `none` when it has none to take (or would read a value that was never written). -/
def TSys.step (f : σ → α × σ) (y : TSys σ α) (t : Nat) : Option (TSys σ α) :=
  match y.threads[t]? with
  | some (.readFlag k) =>
    some { y with threads := y.threads.set t (k y.flag), trace := y.trace ++ [⟨t, .flag, false⟩] }
  | some (.readValue k) =>
    match y.value with
    | some a => some { y with threads := y.threads.set t (k a), trace := y.trace ++ [⟨t, .value, false⟩] }
    | none => none
  | some (.call k) =>
    some { y with threads := y.threads.set t (k (f y.fs).1), fs := (f y.fs).2, calls := y.calls + 1 }
  | some (.writeValue a k) =>
    some { y with threads := y.threads.set t k, value := some a, trace := y.trace ++ [⟨t, .value, true⟩] }
  | some (.writeFlag k) =>
    some { y with threads := y.threads.set t k, flag := true, trace := y.trace ++ [⟨t, .flag, true⟩] }
  | _ => none

/-- A schedule: which thread takes each step. -/
def TSys.run (f : σ → α × σ) : TSys σ α → List Nat → Option (TSys σ α)
  | y, [] => some y
  | y, t :: ts =>
    match y.step f t with
    | some y' => y'.run f ts
    | none => none

/-- Threads that are about to use an object that holds `v` or nothing (latched.hpp:55). -/
def TSys.start (v : Option α) (s : σ) (progs : List (List COp)) : TSys σ α :=
  ⟨v.isSome, v, s, 0, progs.map (fun ops => threadOf ops []), []⟩

end Verif.Cached
