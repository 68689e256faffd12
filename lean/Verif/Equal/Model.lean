import Verif.Bitset.Model

/-!
# Programs over several bitsets of one type

A program keeps any number of variables of type `bitset<N>` with words of `w` bits, changes them with the members and
operators of /repo/include/stdx/bitset.hpp, and asks them questions.
-/

namespace Verif.Equal

open Verif.Bitset

/-- One statement of a program; `d`, `s`, `q` number variables. -/
inductive Act where
  /-- `d = s` -/
  | copy (d s : Nat)
  | set (d i : Nat) (v : Bool)
  | setRange (d l m : Nat) (v : Bool)
  | setLen (d l n : Nat) (v : Bool)
  | setAll (d : Nat)
  | reset (d i : Nat)
  | resetRange (d l m : Nat)
  | resetLen (d l n : Nat)
  | resetAll (d : Nat)
  | flip (d i : Nat)
  | flipAll (d : Nat)
  /-- `d = s | q` -/
  | or (d s q : Nat)
  | and (d s q : Nat)
  | xor (d s q : Nat)
  | sub (d s q : Nat)
  /-- `d = ~s` -/
  | not (d s : Nat)
  /-- `d <<= n` -/
  | shl (d n : Nat)
  | shr (d n : Nat)
  | get (s i : Nat)
  | all (s : Nat)
  | any (s : Nat)
  | none (s : Nat)
  | count (s : Nat)
  /-- `s == q` -/
  | equal (s q : Nat)
  /-- `to<T>()` for a `T` of `u` bits, `same` saying that it is the word type. -/
  | to (s u : Nat) (same : Bool)
  /-- `for_each<Spec>` noting the calls. -/
  | visit (s : Nat) (sp : Spec)
  | lowestUnset (s : Nat)
  /-- `transform_reduce` noting the positions. -/
  | reduce (s : Nat)

/-- What the program learns from a statement. -/
inductive Ans where
  | nothing
  | bool (b : Bool)
  | num (n : Nat)
  | calls (l : List (Nat × Bool))
  | places (l : List Nat)
  | rejected
  deriving DecidableEq, Repr

/-- Changing a variable with a member function, bitset.hpp:271-375, 442-496. -/
def change {w : Nat} (vs : List (Words w)) (d : Nat) (f : Words w → Outcome (Words w)) :
    Outcome (List (Words w) × Ans) := do
  let s ← arrGet vs d
  let r ← f s
  let vs ← arrSet vs d r
  return (vs, .nothing)

/-- Assigning the result of a binary operator, bitset.hpp:112-130. -/
def combine {w : Nat} (vs : List (Words w)) (d s q : Nat) (f : Words w → Words w → Outcome (Words w)) :
    Outcome (List (Words w) × Ans) := do
  let a ← arrGet vs s
  let b ← arrGet vs q
  let r ← f a b
  let vs ← arrSet vs d r
  return (vs, .nothing)

/-- Asking a variable, bitset.hpp:99-110, 148-177, 230-269, 377-413. -/
def ask {w : Nat} (vs : List (Words w)) (s : Nat) (f : Words w → Outcome Ans) : Outcome (List (Words w) × Ans) := do
  let a ← arrGet vs s
  let x ← f a
  return (vs, x)

/-- One statement, bitset.hpp:99-496. -/
def step {w : Nat} (N : Nat) (vs : List (Words w)) : Act → Outcome (List (Words w) × Ans)
  | .copy d s => combine vs d s s fun a _ => .ok a
  | .set d i v => change vs d fun a => Bitset.set a i v
  | .setRange d l m v => change vs d fun a => Bitset.setRange a l m v
  | .setLen d l n v => change vs d fun a => Bitset.setLen a l n v
  | .setAll d => change vs d fun a => .ok (Bitset.setAll a)
  | .reset d i => change vs d fun a => Bitset.reset a i
  | .resetRange d l m => change vs d fun a => Bitset.resetRange a l m
  | .resetLen d l n => change vs d fun a => Bitset.resetLen a l n
  | .resetAll d => change vs d fun a => .ok (Bitset.resetAll a)
  | .flip d i => change vs d fun a => Bitset.flip a i
  | .flipAll d => change vs d fun a => .ok (Bitset.flipAll a)
  | .or d s q => combine vs d s q fun a b => Bitset.or N a b
  | .and d s q => combine vs d s q fun a b => Bitset.and N a b
  | .xor d s q => combine vs d s q fun a b => Bitset.xor N a b
  | .sub d s q => combine vs d s q fun a b => Bitset.sub N a b
  | .not d s => combine vs d s s fun a _ => Bitset.not N a
  | .shl d n => change vs d fun a => Bitset.shl N a n
  | .shr d n => change vs d fun a => Bitset.shr N a n
  | .get s i => ask vs s fun a => do let b ← Bitset.get a i; return .bool b
  | .all s => ask vs s fun a => do let b ← Bitset.all N a; return .bool b
  | .any s => ask vs s fun a => do let b ← Bitset.any N a; return .bool b
  | .none s => ask vs s fun a => do let b ← Bitset.isEmpty N a; return .bool b
  | .count s => ask vs s fun a => do let n ← Bitset.count N a; return .num n
  | .equal s q => ask vs s fun a => do
      let b ← arrGet vs q
      let r ← Bitset.eq N a b
      return .bool r
  | .to s u same => ask vs s fun a =>
      match Bitset.to N u same a with
      | some r => do let x ← r; return .num x.toNat
      | none => .ok .rejected
  | .visit s sp => ask vs s fun a => do
      let l ← Bitset.forEach sp N (fun l c => l ++ [c]) a []
      return .calls l
  | .lowestUnset s => ask vs s fun a => do let n ← Bitset.lowestUnset a; return .num n
  | .reduce s => ask vs s fun a => do
      let l ← Bitset.transformReduce (fun i => i) (fun l i => l ++ [i]) [] a
      return .places l

/-- A program, with what it learns from each statement. -/
def run {w : Nat} (N : Nat) : List Act → List (Words w) → Outcome (List (Words w) × List Ans)
  | [], vs => .ok (vs, [])
  | c :: cs, vs => do
    let (vs, x) ← step N vs c
    let (vs, xs) ← run N cs vs
    return (vs, x :: xs)

end Verif.Equal
