import Verif.Depend.Model
import Mathlib.Logic.Relation

/-!
# Specification: tasks and their dependencies
-/

namespace Verif.Depend

variable {T : Type}

/-- The tasks: whatever is declared. -/
def Task (ks : List (Cmd T)) (t : T) : Prop := .task t ∈ ks ∨ (∃ d, .dep t d ∈ ks) ∨ ∃ u, .dep u t ∈ ks

/-- `t` waits for `d`. -/
def Waits (ks : List (Cmd T)) (t d : T) : Prop := .dep t d ∈ ks

/-- Some task waits for itself, if only through others. -/
def Cyclic (ks : List (Cmd T)) : Prop := ∃ t, Relation.TransGen (Waits ks) t t

/-- There is room for the tasks, and for those each waits for. -/
structure Fits (c : CxMultimap.Cfg T) (ks : List (Cmd T)) : Prop where
  tasks : ∀ l : List T, l.Nodup → (∀ t ∈ l, Task ks t) → l.length ≤ c.KeyN
  deps : ∀ t, ∀ l : List T, l.Nodup → (∀ d ∈ l, Waits ks t d) → l.length ≤ c.ValueN

/-- An order of all tasks in which each comes after those it waits for. -/
structure Ordered (ks : List (Cmd T)) (r : List T) : Prop where
  nodup : r.Nodup
  mem : ∀ t, t ∈ r ↔ Task ks t
  after : ∀ pre t post, r = pre ++ t :: post → ∀ d, Waits ks t d → d ∈ pre

end Verif.Depend
