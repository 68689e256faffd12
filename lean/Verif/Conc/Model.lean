import Verif.Base

/-!
# Threads sharing one atomic cell

The library performs every access to an atomic object through the functions of the external `::atomic`
library (`load`, `store`, `exchange`, `fetch_add`, `fetch_sub`, `fetch_and`, `fetch_or`, `fetch_xor`).
Each of them is taken to be one indivisible step in a single total order.  An operation of the library is a
*program* of such steps, so an operation that used two of them (a load and then a store) would be open to
interference in between.  `Verif.Conc.Order` models executions under weaker memory orders, and `Verif.Conc.OrderLemmas` shows
that each of them ends as a schedule of such steps does.
-/

namespace Verif.Conc

/-- A program over a shared cell of `w` bits: finished with a result, stopped by undefined behaviour, or
an indivisible update `f` of the cell, continuing with the value the cell had before. -/
inductive Prog (w : Nat) (α : Type) where
  | ret (a : α)
  | ub
  | atomically (f : BitVec w → BitVec w) (k : BitVec w → Prog w α)

/-- Sequencing. -/
def Prog.bind {w : Nat} {α β : Type} : Prog w α → (α → Prog w β) → Prog w β
  | .ret a, k => k a
  | .ub, _ => .ub
  | .atomically f p, k => .atomically f (fun c => (p c).bind k)

/-- A local computation that may be undefined. -/
def Prog.ofOutcome {w : Nat} {α : Type} : Outcome α → Prog w α
  | .ok a => .ret a
  | _ => .ub

/-- `::atomic::load`. -/
def load {w : Nat} : Prog w (BitVec w) := .atomically id .ret
/-- `::atomic::store`. -/
def store {w : Nat} (v : BitVec w) : Prog w Unit := .atomically (fun _ => v) (fun _ => .ret ())
/-- `::atomic::exchange`. -/
def exchange {w : Nat} (v : BitVec w) : Prog w (BitVec w) := .atomically (fun _ => v) .ret
/-- `::atomic::fetch_add`. -/
def fetchAdd {w : Nat} (v : BitVec w) : Prog w (BitVec w) := .atomically (fun c => c + v) .ret
/-- `::atomic::fetch_sub`. -/
def fetchSub {w : Nat} (v : BitVec w) : Prog w (BitVec w) := .atomically (fun c => c - v) .ret
/-- `::atomic::fetch_and`. -/
def fetchAnd {w : Nat} (v : BitVec w) : Prog w (BitVec w) := .atomically (fun c => c &&& v) .ret
/-- `::atomic::fetch_or`. -/
def fetchOr {w : Nat} (v : BitVec w) : Prog w (BitVec w) := .atomically (fun c => c ||| v) .ret
/-- `::atomic::fetch_xor`. -/
def fetchXor {w : Nat} (v : BitVec w) : Prog w (BitVec w) := .atomically (fun c => c ^^^ v) .ret

/-- A thread that performs operations one after the other and collects their results. -/
def threadProg {w : Nat} {Op R : Type} (impl : Op → Prog w R) : List Op → List R → Prog w (List R)
  | [], acc => .ret acc
  | op :: ops, acc => (impl op).bind (fun r => threadProg impl ops (acc ++ [r]))

/-- The cell and what each thread has still to do. -/
structure Sys (w : Nat) (α : Type) where
  cell : BitVec w
  threads : List (Prog w α)

/-- Thread `t` takes one step; `none` when it cannot. -/
def Sys.step {w : Nat} {α : Type} (s : Sys w α) (t : Nat) : Option (Sys w α) :=
  match s.threads[t]? with
  | some (.atomically f k) => some ⟨f s.cell, s.threads.set t (k s.cell)⟩
  | _ => none

/-- Run a schedule: the list of the threads that take each step. -/
def Sys.run {w : Nat} {α : Type} : Sys w α → List Nat → Option (Sys w α)
  | s, [] => some s
  | s, t :: ts =>
    match s.step t with
    | some s' => s'.run ts
    | none => none

/-- Threads with the given operations, none of them started. -/
def start {w : Nat} {Op R : Type} (impl : Op → Prog w R) (progs : List (List Op)) (c : BitVec w) : Sys w (List R) :=
  ⟨c, progs.map (fun ops => threadProg impl ops [])⟩

end Verif.Conc
