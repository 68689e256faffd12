import Verif.Shared.Model

/-!
# Specification: histories of acquiring and releasing, one after the other
-/

namespace Verif.Shared

/-- A call by a thread has given a result. -/
structure Ev where
  tid : Nat
  res : Res

/-- The results of one thread. -/
def evs (t : Nat) (h : List Ev) : List Res := (h.filter fun e => e.tid == t).map (·.res)

/-- Who holds identifier `i` after another event. -/
def owns (i : Nat) (o : Option Nat) (e : Ev) : Option Nat :=
  match e.res with
  | .got j => if j = i then some e.tid else o
  | .gave j => if j = i then none else o
  | _ => o

/-- Who holds identifier `i` after a history. -/
def owner (h : List Ev) (i : Nat) : Option Nat := h.foldl (owns i) none

/-- The number of acquisitions since the last result of thread `t`, after another event. -/
def counts (t : Nat) (k : Nat) (e : Ev) : Nat :=
  if e.tid = t then 0 else match e.res with
    | .got _ => k + 1
    | _ => k

/-- How many identifiers other threads have acquired since the last result of thread `t`. -/
def since (t : Nat) (h : List Ev) : Nat := h.foldl (counts t) 0

/-- Histories: an identifier is acquired only if nobody holds it, released by the thread that holds it, all are in use when a
thread is told so, and a thread that has used up its tries has been overtaken that often since its previous call. -/
inductive History (N tries : Nat) : List Ev → Prop where
  | nil : History N tries []
  | got {h} (hh : History N tries h) (t i) (hi : i < N) (hf : owner h i = none) : History N tries (h ++ [⟨t, .got i⟩])
  | full {h} (hh : History N tries h) (t) (hf : ∀ i, i < N → owner h i ≠ none) : History N tries (h ++ [⟨t, .full⟩])
  | busy {h} (hh : History N tries h) (t) (hf : tries ≤ since t h) : History N tries (h ++ [⟨t, .busy⟩])
  | gave {h} (hh : History N tries h) (t i) (hf : owner h i = some t) : History N tries (h ++ [⟨t, .gave i⟩])

/-- What a thread gets for its commands, with what it holds before and after. -/
inductive Replies : List Nat → List Cmd → List Res → List Nat → Prop where
  | nil (held) : Replies held [] [] held
  | got {held cs rs held' i} (h : Replies (held ++ [i]) cs rs held') : Replies held (.acquire :: cs) (.got i :: rs) held'
  | full {held cs rs held'} (h : Replies held cs rs held') : Replies held (.acquire :: cs) (.full :: rs) held'
  | busy {held cs rs held'} (h : Replies held cs rs held') : Replies held (.acquire :: cs) (.busy :: rs) held'
  | gave {held cs rs held' i j} (hj : held[j]? = some i) (h : Replies (held.eraseIdx j) cs rs held') :
      Replies held (.release j :: cs) (.gave i :: rs) held'
  | skip {held cs rs held' j} (hj : held[j]? = none) (h : Replies held cs rs held') : Replies held (.release j :: cs) rs held'

end Verif.Shared
