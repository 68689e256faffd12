import Verif.Base

/-!
# Overload selection with `priority_t`

The header only defines a chain of classes; what a user relies on is what overload resolution makes of it.  So the model
has the chain, and the part of overload resolution that ranks the viable functions ([over.match.best], [over.ics.rank]).
-/

namespace Verif.Priority

/-- The base class of `priority_t<N>`: `priority_t<N - 1>`, and none for `priority_t<0>` (priority.hpp:7-8). -/
def base : Nat → Option Nat
  | 0 => none
  | n + 1 => some n

/-- The number of steps from a class up to a base class, if it is one: the conversion of an argument `priority_t<n>` to a
parameter `priority_t<p>`; at most `fuel` steps are looked at (priority.hpp:7-8). -/
def distance (p : Nat) : (fuel n : Nat) → Option Nat
  | 0, n => if n = p then some 0 else none
  | fuel + 1, n =>
    if n = p then some 0
    else match base n with
      | none => none
      | some m => (distance p fuel m).map (· + 1)

/-- An overload, as seen by a given call (test/priority.cpp:7-13): its last parameter is `priority_t<prio>`; `others` has the ranks of the
conversions of the other arguments, smaller is better, or `none` if the function does not take them or its constraints are not
satisfied.  (That conversion sequences may be indistinguishable without being of equal rank is left out.) -/
structure Cand where
  prio : Nat
  others : Option (List Nat)
deriving DecidableEq, Repr

/-- The ranks of the conversions of all arguments in a call with `priority<n>`, last the one to the priority parameter: none if the
function is not viable (priority.hpp:7-10). -/
def ranks (n : Nat) (c : Cand) : Option (List Nat) := do
  let d ← distance c.prio n n
  let r ← c.others
  return r ++ [d]

/-- No argument converts worse ([over.match.best.general]/2; priority.hpp:7-8). -/
def notWorse : List Nat → List Nat → Bool
  | a :: as, b :: bs => a ≤ b && notWorse as bs
  | _, _ => true

/-- Some argument converts better ([over.match.best.general]/2; priority.hpp:7-8). -/
def someBetter : List Nat → List Nat → Bool
  | a :: as, b :: bs => a < b || someBetter as bs
  | _, _ => false

/-- Overload `i` is a better match than overload `j`: `tie i j` stands for the rules that apply if no conversion tells them
apart (functions before templates, more specialised, more constrained) (priority.hpp:7-8). -/
def better (tie : Nat → Nat → Bool) (i j : Nat) (r s : List Nat) : Bool :=
  notWorse r s && (someBetter r s || (notWorse s r && tie i j))

/-- The outcome of a call. -/
inductive Result where
  | calls (i : Nat)
  | noMatch
  | ambiguous
deriving DecidableEq, Repr

/-- The viable overloads with their positions (priority.hpp:7-10). -/
def viable (n : Nat) (cs : List Cand) : List (Nat × List Nat) :=
  cs.zipIdx.filterMap (fun (c, i) => (ranks n c).map (fun r => (i, r)))

/-- Overload resolution for `f(args..., priority<n>)`: the viable overload that is better than every other one (priority.hpp:7-10). -/
def resolve (tie : Nat → Nat → Bool) (n : Nat) (cs : List Cand) : Result :=
  let v := viable n cs
  match v.find? (fun (i, r) => v.all (fun (j, s) => i == j || better tie i j r s)) with
  | some (i, _) => .calls i
  | none => if v.isEmpty then .noMatch else .ambiguous

end Verif.Priority
