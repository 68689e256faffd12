import Verif.AtomicBitset.Model
import Verif.Atomic.Model
import Verif.Conc.Order

/-!
# Memory orders and synchronisation of `atomic` and `atomic_bitset`
(/repo/include/stdx/atomic.hpp, /repo/include/stdx/atomic_bitset.hpp)

The programs of `Verif.AtomicBitset.Model` and `Verif.Atomic.Model` once more, with the memory order that each call of the
external library is given and with the kind of the access.  Which order a member function hands on decides what the other
threads may conclude from what they read: a call that reads, directly or through read-modify-writes, what a releasing call
has written, and that is an acquiring call itself, happens after it.  What the language guarantees for the accesses to the one
object is as in `Verif.Conc.Order`; `consume` is taken to order nothing, which only means fewer guarantees.
-/

namespace Verif.Sync

open Verif.Conc

/-- `std::memory_order`, the parameters of atomic.hpp:53, 57, 70, 74, 78, 103, 107, 111 and atomic_bitset.hpp:88-233. -/
inductive MOrd
  | relaxed | consume | acquire | release | acqRel | seqCst
  deriving DecidableEq, Repr

/-- Orders with which a read acquires ([atomics.order]; the parameters of atomic.hpp:53, 70-111). -/
def MOrd.acquires : MOrd → Bool
  | .acquire | .acqRel | .seqCst => true
  | _ => false

/-- Orders with which a write releases ([atomics.order]; the parameters of atomic.hpp:57, 70-111). -/
def MOrd.releases : MOrd → Bool
  | .release | .acqRel | .seqCst => true
  | _ => false

/-- What a function of the external library does to the object: atomic.hpp:54, 58 and 71-113. -/
inductive Kind
  | load | store | rmw
  deriving DecidableEq, Repr

/-- The preconditions of [atomics.types.operations], taken over by the external library (atomic.hpp:54, 58, 71): a load does not
release and a store does not acquire. -/
def Kind.allows : Kind → MOrd → Bool
  | .load, o => o ≠ .release ∧ o ≠ .acqRel
  | .store, o => o ≠ .consume ∧ o ≠ .acquire ∧ o ≠ .acqRel
  | .rmw, _ => true

/-- Programs as in `Verif.Conc.Prog`, with the kind and order of each access. (The calls of atomic.hpp:52-118 and
atomic_bitset.hpp:41-43, 104-217.) -/
inductive LProg (w : Nat) (α : Type) where
  | ret (a : α)
  | ub
  | access (k : Kind) (o : MOrd) (f : BitVec w → BitVec w) (c : BitVec w → LProg w α)

/-- Sequencing. (The member functions of atomic.hpp:52-118 use the results of the calls.) -/
def LProg.bind {w : Nat} {α β : Type} : LProg w α → (α → LProg w β) → LProg w β
  | .ret a, k => k a
  | .ub, _ => .ub
  | .access q o f p, k => .access q o f (fun c => (p c).bind k)

/-- A local computation that may be undefined. (As atomic_bitset.hpp:127 and 140.) -/
def LProg.ofOutcome {w : Nat} {α : Type} : Outcome α → LProg w α
  | .ok a => .ret a
  | _ => .ub

/-- A call of the external library with an order: atomic.hpp:54, 58, 71-113. -/
def access {w : Nat} (k : Kind) (o : MOrd) (f : BitVec w → BitVec w) : LProg w (BitVec w) :=
  if k.allows o then .access k o f .ret else .ub

/-- `::atomic::load(value, mo)`, atomic.hpp:54 and atomic_bitset.hpp:42. -/
def load {w : Nat} (o : MOrd) : LProg w (BitVec w) := access .load o id
/-- `::atomic::store(value, v, mo)`, atomic.hpp:58 and atomic_bitset.hpp:115, 156, 188. -/
def store {w : Nat} (v : BitVec w) (o : MOrd) : LProg w (BitVec w) := access .store o fun _ => v
/-- `::atomic::exchange(value, v, mo)`, atomic.hpp:71. -/
def exchange {w : Nat} (v : BitVec w) (o : MOrd) : LProg w (BitVec w) := access .rmw o fun _ => v
/-- `::atomic::fetch_add(value, v, mo)`, atomic.hpp:76, 88 and 92. -/
def fetchAdd {w : Nat} (v : BitVec w) (o : MOrd) : LProg w (BitVec w) := access .rmw o fun c => c + v
/-- `::atomic::fetch_sub(value, v, mo)`, atomic.hpp:80, 96 and 100. -/
def fetchSub {w : Nat} (v : BitVec w) (o : MOrd) : LProg w (BitVec w) := access .rmw o fun c => c - v
/-- `::atomic::fetch_and(value, v, mo)`, atomic.hpp:105 and atomic_bitset.hpp:132, 144, 164, 174. -/
def fetchAnd {w : Nat} (v : BitVec w) (o : MOrd) : LProg w (BitVec w) := access .rmw o fun c => c &&& v
/-- `::atomic::fetch_or(value, v, mo)`, atomic.hpp:109 and atomic_bitset.hpp:129, 142. -/
def fetchOr {w : Nat} (v : BitVec w) (o : MOrd) : LProg w (BitVec w) := access .rmw o fun c => c ||| v
/-- `::atomic::fetch_xor(value, v, mo)`, atomic.hpp:113 and atomic_bitset.hpp:196, 205, 216. -/
def fetchXor {w : Nat} (v : BitVec w) (o : MOrd) : LProg w (BitVec w) := access .rmw o fun c => c ^^^ v

/-- The default argument `std::memory_order_seq_cst`, atomic.hpp:53, 57, 70, 74, 78, 103, 107, 111 and atomic_bitset.hpp:88, 99,
109, 114, 126, 137, 148, 154, 161, 169, 178, 186, 193, 201, 209, 215, 220, 224, 228, 233. -/
def given (o : Option MOrd) : MOrd := o.getD .seqCst

/-! ## `atomic_bitset` -/

/-- Calls of the member functions, with the order if one is given: those of `Verif.AtomicBitset.Op`, the conversion to `bitset_t`
(atomic_bitset.hpp:105-107), `operator[]` (120-122), `to<T>` for a `T` of `u` bits (86-96), `all`, `any`, `none` and
`count` (219-236). -/
inductive BCall (w : Nat) where
  | op (o : AtomicBitset.Op w) (mo : Option MOrd)
  | convert
  | index (i : Nat)
  | num (u : Nat) (mo : Option MOrd)
  | all (mo : Option MOrd)
  | any (mo : Option MOrd)
  | none (mo : Option MOrd)
  | count (mo : Option MOrd)

/-- Results of the calls: a bitset or none (atomic_bitset.hpp:104-217), a `bool` (120, 219-230) or a number (86-96, 232-236). -/
inductive Res (w : Nat) where
  | prev (b : Option (Bitset.Words w))
  | flag (b : Bool)
  | num (n : Nat)

/-- Return `bitset_t{prev}`, e.g. atomic_bitset.hpp:129-133. -/
def returnBitset {w : Nat} (N : Nat) (p : LProg w (BitVec w)) : LProg w (Res w) :=
  p.bind fun prev => (LProg.ofOutcome (AtomicBitset.toBitset w N prev)).bind fun b => .ret (.prev (some b))

/-- `set(lsb, msb, value, order)`, atomic_bitset.hpp:136-145. -/
def setRange {w : Nat} (N l m : Nat) (value : Bool) (o : MOrd) : LProg w (Res w) :=
  (LProg.ofOutcome (BitMask.bitMask w m l)).bind fun v =>
    if value then returnBitset N (fetchOr v o) else returnBitset N (fetchAnd (~~~v) o)

/-- `reset(lsb, msb, order)`, atomic_bitset.hpp:168-175. -/
def resetRange {w : Nat} (N l m : Nat) (o : MOrd) : LProg w (Res w) :=
  (LProg.ofOutcome (BitMask.bitMask w m l)).bind fun v => returnBitset N (fetchAnd (~~~v) o)

/-- `flip(lsb, msb, order)`, atomic_bitset.hpp:200-206. -/
def flipRange {w : Nat} (N l m : Nat) (o : MOrd) : LProg w (Res w) :=
  (LProg.ofOutcome (BitMask.bitMask w m l)).bind fun v => returnBitset N (fetchXor v o)

/-- `load(order)`, atomic_bitset.hpp:109-112 with `salient_value(order)`, 41-43. -/
def bload {w : Nat} (N : Nat) (o : MOrd) : LProg w (Res w) :=
  (LProg.ofOutcome (AtomicBitset.mask w N)).bind fun m => (load o).bind fun c =>
    (LProg.ofOutcome (AtomicBitset.toBitset w N (c &&& m))).bind fun b => .ret (.prev (some b))

/-- A function of `salient_value(order)`, atomic_bitset.hpp:41-43. -/
def observe {w : Nat} (o : MOrd) (g : BitVec w → Outcome (Res w)) : LProg w (Res w) :=
  (load o).bind fun c => LProg.ofOutcome (g c)

/-- The member functions that touch the storage with their orders, atomic_bitset.hpp:104-217. -/
def bop {w : Nat} (N : Nat) (o : MOrd) : AtomicBitset.Op w → LProg w (Res w)
  -- 109-112
  | .load => bload N o
  -- 113-116
  | .store b =>
    match Bitset.to N w true b with
    | some v => (LProg.ofOutcome v).bind fun v => (store v o).bind fun _ => .ret (.prev .none)
    | none => .ub
  -- 124-134
  | .set pos value => (LProg.ofOutcome (cshl 1#w pos)).bind fun v =>
      if value then returnBitset N (fetchOr v o) else returnBitset N (fetchAnd (~~~v) o)
  | .setRange l m value => setRange N l m value o
  -- 147-152
  | .setLen l len value => setRange N l (Bitset.lenToMsb l len) value o
  -- 154-158
  | .setAll => (LProg.ofOutcome (AtomicBitset.mask w N)).bind fun m => (store m o).bind fun _ => .ret (.prev .none)
  -- 160-166
  | .reset pos => (LProg.ofOutcome (cshl 1#w pos)).bind fun v => returnBitset N (fetchAnd (~~~v) o)
  | .resetRange l m => resetRange N l m o
  -- 177-183
  | .resetLen l len => resetRange N l (Bitset.lenToMsb l len) o
  -- 185-190
  | .resetAll => (store 0#w o).bind fun _ => .ret (.prev .none)
  -- 192-198
  | .flip pos => (LProg.ofOutcome (cshl 1#w pos)).bind fun v => returnBitset N (fetchXor v o)
  | .flipRange l m => flipRange N l m o
  -- 208-213
  | .flipLen l len => flipRange N l (Bitset.lenToMsb l len) o
  -- 215-217
  | .flipAll => (LProg.ofOutcome (AtomicBitset.mask w N)).bind fun m => returnBitset N (fetchXor m o)

/-- What each call does, atomic_bitset.hpp:86-236: the conversion (105-107) and `operator[]` (120-122) take no order. -/
def bcall {w : Nat} (N : Nat) : BCall w → LProg w (Res w)
  | .op op mo => bop N (given mo) op
  | .convert => bload N .seqCst
  | .index i => observe .seqCst fun c => do let b ← AtomicBitset.get N c i; return .flag b
  | .num u mo => observe (given mo) fun c =>
      match AtomicBitset.to N u c with
      | some v => do let x ← v; return .num x.toNat
      | none => .ub
  | .all mo => observe (given mo) fun c => do let b ← AtomicBitset.all N c; return .flag b
  | .any mo => observe (given mo) fun c => do let b ← AtomicBitset.any N c; return .flag b
  | .none mo => observe (given mo) fun c => do let b ← AtomicBitset.none' N c; return .flag b
  | .count mo => observe (given mo) fun c => do let n ← AtomicBitset.count N c; return .num n

/-! ## `atomic` -/

/-- What each member function of `atomic` does with the order given; the operators take none (atomic.hpp:52-118). `++` and `--`
leave the order to the external library, whose default is `dflt` (88, 92, 96, 100). -/
def acall (C : Atomic.Cfg) (dflt : MOrd) (mo : Option MOrd) : Atomic.Op C.w → LProg C.e (Option (BitVec C.w))
  -- 52-55, and the conversion operator 62
  | .load => (load (given mo)).bind fun r => .ret (some (Atomic.narrow C r))
  -- 57-59
  | .store v => (store (Atomic.widen C v) (given mo)).bind fun _ => .ret none
  -- 64-67
  | .assign v => (store (Atomic.widen C v) .seqCst).bind fun _ => .ret (some v)
  -- 69-72
  | .exchange v => (exchange (Atomic.widen C v) (given mo)).bind fun r => .ret (some (Atomic.narrow C r))
  -- 74-77
  | .fetchAdd v => (fetchAdd (Atomic.widen C v) (given mo)).bind fun r => .ret (some (Atomic.narrow C r))
  -- 78-81
  | .fetchSub v => (fetchSub (Atomic.widen C v) (given mo)).bind fun r => .ret (some (Atomic.narrow C r))
  -- 83
  | .addAssign v => (fetchAdd (Atomic.widen C v) .seqCst).bind fun r =>
      (LProg.ofOutcome (Atomic.cadd C.tSigned (Atomic.narrow C r) v)).bind fun x => .ret (some x)
  -- 84
  | .subAssign v => (fetchSub (Atomic.widen C v) .seqCst).bind fun r =>
      (LProg.ofOutcome (Atomic.csub C.tSigned (Atomic.narrow C r) v)).bind fun x => .ret (some x)
  -- 86-89
  | .preInc => (fetchAdd 1#C.e dflt).bind fun r =>
      (LProg.ofOutcome (Atomic.cadd C.eSigned r 1#C.e)).bind fun x => .ret (some (Atomic.narrow C x))
  -- 90-93
  | .postInc => (fetchAdd 1#C.e dflt).bind fun r => .ret (some (Atomic.narrow C r))
  -- 94-97
  | .preDec => (fetchSub 1#C.e dflt).bind fun r =>
      (LProg.ofOutcome (Atomic.csub C.eSigned r 1#C.e)).bind fun x => .ret (some (Atomic.narrow C x))
  -- 98-101
  | .postDec => (fetchSub 1#C.e dflt).bind fun r => .ret (some (Atomic.narrow C r))
  -- 103-106
  | .fetchAnd v => (fetchAnd (Atomic.widen C v) (given mo)).bind fun r => .ret (some (Atomic.narrow C r))
  -- 107-110
  | .fetchOr v => (fetchOr (Atomic.widen C v) (given mo)).bind fun r => .ret (some (Atomic.narrow C r))
  -- 111-114
  | .fetchXor v => (fetchXor (Atomic.widen C v) (given mo)).bind fun r => .ret (some (Atomic.narrow C r))
  -- 116-118
  | .andAssign v => (fetchAnd (Atomic.widen C v) .seqCst).bind fun r => .ret (some (Atomic.narrow C r &&& v))
  | .orAssign v => (fetchOr (Atomic.widen C v) .seqCst).bind fun r => .ret (some (Atomic.narrow C r ||| v))
  | .xorAssign v => (fetchXor (Atomic.widen C v) .seqCst).bind fun r => .ret (some (Atomic.narrow C r ^^^ v))

/-! ## Executions -/

/-- A call that a thread has made: its result, and the access by which it touched the object. (Calls of the functions of
atomic.hpp:52-118 or atomic_bitset.hpp:86-236.) -/
structure Rec (Call ρ : Type) where
  call : Call
  res : ρ
  acc : Acc

/-- The call is what the record says, when the first `n` writes to the object leave `val n`: a load reads, a store or
read-modify-write writes, and the result comes from the value read. (The programs of atomic.hpp:52-118 and
atomic_bitset.hpp:86-236.) -/
def Does {w : Nat} {Call ρ : Type} (impl : Call → LProg w ρ) (val : Nat → BitVec w) (r : Rec Call ρ) : Prop :=
  ∃ k o f c, impl r.call = .access k o f c ∧ c (val r.acc.pos) = .ret r.res ∧
    ((k = .load ∧ ∃ p, r.acc = .read p) ∨ (k ≠ .load ∧ ∃ j, r.acc = .write j ∧ val (j + 1) = f (val j)))

/-- The calls that threads have made so far, whatever their programs are: any execution that the rules for one object allow, as
`Verif.Conc.Execution`. (The guarantees behind atomic.hpp:52-118 and atomic_bitset.hpp:86-236.) -/
structure History {w : Nat} {Call ρ : Type} (impl : Call → LProg w ρ) (c0 : BitVec w) (m : Nat) (val : Nat → BitVec w)
    (threads : List (List (Rec Call ρ))) : Prop where
  initial : val 0 = c0
  does : ∀ rs ∈ threads, ∀ r ∈ rs, Does impl val r
  bounded : ∀ rs ∈ threads, ∀ r ∈ rs, (∀ j, r.acc = .write j → j < m) ∧ (∀ p, r.acc = .read p → p ≤ m)
  every : ∀ j, j < m → ∃ rs ∈ threads, ∃ r ∈ rs, r.acc = .write j
  once : ∀ (t t' i i' : Nat) rs rs' r r' j, threads[t]? = some rs → threads[t']? = some rs' → rs[i]? = some r →
    rs'[i']? = some r' → r.acc = .write j → r'.acc = .write j → t = t' ∧ i = i'
  coherent : ∀ rs ∈ threads, (rs.map Rec.acc).Pairwise Coherent

/-- The `n`-th call of thread `t`. (Calls of the functions of atomic.hpp:52-118 or atomic_bitset.hpp:86-236.) -/
def callAt {Call ρ : Type} (threads : List (List (Rec Call ρ))) (t n : Nat) : Option (Rec Call ρ) :=
  threads[t]?.bind (·[n]?)

/-- Synchronisation, [atomics.order]: the first call releases and writes, the second acquires and reads what the first has written
or what read-modify-writes have made of it. (What the orders of atomic.hpp:52-118 and atomic_bitset.hpp:86-236 are for.) -/
def SyncsWith {w : Nat} {Call ρ : Type} (impl : Call → LProg w ρ) (threads : List (List (Rec Call ρ))) (t n t' n' : Nat) : Prop :=
  ∃ r r' k o f c k' o' f' c' j, callAt threads t n = some r ∧ callAt threads t' n' = some r' ∧
    impl r.call = .access k o f c ∧ impl r'.call = .access k' o' f' c' ∧
    k ≠ .load ∧ o.releases = true ∧ k' ≠ .store ∧ o'.acquires = true ∧
    r.acc = .write j ∧ j < r'.acc.pos ∧
    ∀ i, j < i → i < r'.acc.pos → ∀ u l q, callAt threads u l = some q → q.acc = .write i →
      ∃ o'' f'' c'', impl q.call = .access .rmw o'' f'' c''

/-- One call happens before another, [intro.races]: earlier in the same thread, or by synchronisation. (What the orders of
atomic.hpp:52-118 and atomic_bitset.hpp:86-236 are for.) -/
inductive HappensBefore {w : Nat} {Call ρ : Type} (impl : Call → LProg w ρ) (threads : List (List (Rec Call ρ))) :
    Nat → Nat → Nat → Nat → Prop
  | same (t n n') (r r') (h : callAt threads t n = some r) (h' : callAt threads t n' = some r') (hn : n < n') :
      HappensBefore impl threads t n t n'
  | sync (t n t' n') (h : SyncsWith impl threads t n t' n') : HappensBefore impl threads t n t' n'
  | trans (t n t' n' t'' n'') (h : HappensBefore impl threads t n t' n') (h' : HappensBefore impl threads t' n' t'' n'') :
      HappensBefore impl threads t n t'' n''

end Verif.Sync
