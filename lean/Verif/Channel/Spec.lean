import Verif.Channel.Model

/-!
# Specification: a channel of limited capacity
-/

namespace Verif.Channel

variable {α : Type}

/-- The channel holds a list of values, oldest first. -/
def specStep (N : Nat) (l : List α) : Op α → List α × Res α
  | .send x => if l.length < N then (l ++ [x], .sent) else (l, .full)
  | .receive =>
    match l with
    | [] => ([], .nothing)
    | x :: l => (l, .got x)

/-- What the channel holds after operations one after the other. -/
def after (N : Nat) (os : List (Op α)) : List α := os.foldl (fun l o => (specStep N l o).1) []

/-- Operations one after the other, with their results. -/
def oneByOne {S O R : Type} (step : S → O → Outcome (S × R)) : S → List O → Outcome (S × List R)
  | s, [] => .ok (s, [])
  | s, o :: os =>
    match step s o with
    | .ok (s, r) =>
      match oneByOne step s os with
      | .ok (s, rs) => .ok (s, r :: rs)
      | .ub => .ub
      | .panic => .panic
    | .ub => .ub
    | .panic => .panic

open Verif.Sync

variable {κ γ δ : Type} {D : Decls κ γ} [DecidableEq κ] [DecidableEq γ]

/-- `L` is an order of all operations on `d`, in accordance with happens-before, in which each gives the result it would give if
they were done one after the other on a list. -/
structure Sequential (N : Nat) (threads : List (List (Event D δ))) (d : δ) (op : Nat × Nat → Op α) (res : Nat × Nat → Outcome (Res α))
    (L : List (Nat × Nat)) : Prop where
  nodup : L.Nodup
  all : ∀ p, p ∈ L ↔ IsOp threads d p
  order : L.Pairwise (Before threads)
  results : ∀ (n : Nat) p, L[n]? = some p → res p = .ok (specStep N (after N ((L.map op).take n)) (op p)).2

/-- The operations that have sent, in order, and those that have received: each of these gets the value of the corresponding one of those.
What was done until then where it was sent happens before what is done from then on where it is received. -/
def Fifo (N : Nat) (threads : List (List (Event D δ))) (d : δ) (op : Nat × Nat → Op α) (res : Nat × Nat → Outcome (Res α)) : Prop :=
  ∃ sends gets : List (Nat × Nat), sends.Nodup ∧ gets.Nodup ∧
    (∀ p, p ∈ sends ↔ IsOp threads d p ∧ res p = .ok .sent) ∧ (∀ p, p ∈ gets ↔ IsOp threads d p ∧ ∃ x, res p = .ok (.got x)) ∧
    sends.Pairwise (Before threads) ∧ gets.Pairwise (Before threads) ∧
    (∀ (k : Nat) p, gets[k]? = some p → ∃ s x, sends[k]? = some s ∧ op s = .send x ∧ res p = .ok (.got x) ∧
      ∀ l l' e e', eventAt threads s.1 l = some e → eventAt threads p.1 l' = some e' → l ≤ s.2 → p.2 ≤ l' → HB threads s.1 l p.1 l') ∧
    sends.length ≤ gets.length + N

end Verif.Channel
