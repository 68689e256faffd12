import Verif.Lru.Model

/-!
# Specification: the entries of a cache, most recently used first
-/

namespace Verif.Lru

variable {κ ν : Type} [DecidableEq κ]

/-- The entries without those of a key. -/
def without (l : List (κ × ν)) (k : κ) : List (κ × ν) := l.filter fun e => e.1 ≠ k

/-- What is in the cache after a command, and what the command returns.  A cache holds `N` entries; if there are more, the one that has not been
used for longest is dropped. -/
def answer (N : Nat) (l : List (κ × ν)) : Cmd κ ν → List (κ × ν) × Option ν
  | .get k =>
    match l.find? fun e => e.1 = k with
    | some e => (e :: without l k, some e.2)
    | none => (l, none)
  | .put k v => (((k, v) :: without l k).take N, none)
  | .erase k => (without l k, none)

/-- What a history returns. -/
def answers (N : Nat) (l : List (κ × ν)) : List (Cmd κ ν) → List (Option ν)
  | [] => []
  | c :: cs => (answer N l c).2 :: answers N (answer N l c).1 cs

/-- What is in the cache after a history. -/
def after (N : Nat) (l : List (κ × ν)) : List (Cmd κ ν) → List (κ × ν)
  | [] => l
  | c :: cs => after N (answer N l c).1 cs

/-- The key of a command. -/
def Cmd.key : Cmd κ ν → κ
  | .get k => k
  | .put k _ => k
  | .erase k => k

end Verif.Lru
