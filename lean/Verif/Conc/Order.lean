import Verif.Conc.Model

/-!
# Executions under any memory orders

The member functions of `atomic` and `atomic_bitset` pass the memory order they are given to the external atomic library
(atomic.hpp:52-114, atomic_bitset.hpp:41-43, 104-217).  With orders weaker than `seq_cst` a load may give a value
that other threads have already replaced, and stores of different threads need not take effect in the order of time.  What
the language guarantees for one atomic object under every order is modelled here, as axioms on executions: there is one
modification order of all writes to the object; a read-modify-write reads what is immediately before it in that order; a
load reads the initial value or any write; and the four coherence rules ([intro.races] of the standard) relate two accesses
of the same thread.  Synchronisation with other objects would exclude further executions and is left out, so these are at
least all the executions there are.
-/

namespace Verif.Conc

/-- An access of a thread to the object: `write j` is the write with `j` others before it in the modification order (a
store, or a read-modify-write, which reads what these leave), `read p` a load that reads what the first `p` writes leave.
(atomic.hpp:54, 58, 71, 76, 80, 105, 109 and 113) -/
inductive Acc
  | write (j : Nat)
  | read (p : Nat)
deriving DecidableEq, Repr

/-- How many writes precede what the access reads. (atomic.hpp:54, 71, 76) -/
def Acc.pos : Acc → Nat
  | .write j => j
  | .read p => p

/-- Write-write, write-read, read-write and read-read coherence of two accesses of one thread, the first before the second:
later writes are later in the modification order; a load after a write reads that or a later one; a write after a load is
later than what was read; a later load does not read an earlier value. (The guarantees behind atomic.hpp:52-114.) -/
def Coherent : Acc → Acc → Prop
  | .write j, .write j' => j < j'
  | .write j, .read p => j < p
  | .read p, .write j => p ≤ j
  | .read p, .read p' => p ≤ p'

/-- A thread's program performs the accesses one after the other: each continues with the value it reads, a write leaves the
updated value, and only an update that changes nothing may be a load. `val n` is what the first `n` writes leave. (Steps
of the programs of atomic.hpp:52-118 and atomic_bitset.hpp:104-217.) -/
inductive Performs {w : Nat} {α : Type} (val : Nat → BitVec w) : Prog w α → List Acc → Prog w α → Prop
  | nil (p) : Performs val p [] p
  | cons (f k a as q) (hw : ∀ j, a = .write j → val (j + 1) = f (val j)) (hr : ∀ p, a = .read p → ∀ c, f c = c)
      (h : Performs val (k (val a.pos)) as q) : Performs val (.atomically f k) (a :: as) q

/-- An execution of threads, from the initial value `c0`, with `m` writes: the accesses `accs` each thread has performed and
what it has still to do in `ends`. (The guarantees behind atomic.hpp:52-118 and atomic_bitset.hpp:104-217.) -/
structure Execution {w : Nat} {α : Type} (progs : List (Prog w α)) (c0 : BitVec w) (m : Nat) (val : Nat → BitVec w)
    (accs : List (List Acc)) (ends : List (Prog w α)) : Prop where
  initial : val 0 = c0
  threads : accs.length = progs.length
  threads' : ends.length = progs.length
  performs : ∀ (t : Nat) p as q, progs[t]? = some p → accs[t]? = some as → ends[t]? = some q → Performs val p as q
  bounded : ∀ as ∈ accs, (∀ j, .write j ∈ as → j < m) ∧ (∀ p, .read p ∈ as → p ≤ m)
  every : ∀ j, j < m → ∃ as ∈ accs, .write j ∈ as
  once : ∀ (t t' i i' : Nat) as as' j, accs[t]? = some as → accs[t']? = some as' → as[i]? = some (.write j) →
    as'[i']? = some (.write j) → t = t' ∧ i = i'
  coherent : ∀ as ∈ accs, as.Pairwise Coherent

end Verif.Conc
