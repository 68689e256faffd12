import Verif.Algorithm.Model
import Verif.Bitset.Model
import Verif.Tuple.Model
import Verif.Util.Model
import Verif.Buf.Model

/-!
# Algorithms whose functions throw

The models of the algorithms elsewhere take the functions given to them to return.  Here a function may throw in any call, as
it likes: it gets its arguments and the world, which it may change, and gives a result or an exception.  The world is all
that outlives the call of the algorithm; its locals (iterators, the value reduced so far) are lost with an exception.
Simplified: destructors of the locals have no effect on the world, and iterators, copies and moves do not throw.
-/

namespace Verif.Unwind

variable {E W X A R α β τ σ : Type}

/-- The outcome of a call: it returns, an exception leaves it, the behaviour is undefined, or the program is terminated because an
exception would leave a function that is `noexcept`. -/
inductive Res (E W R : Type) where
  | ok (w : W) (r : R)
  | threw (w : W) (e : E)
  | ub
  | terminated
  deriving DecidableEq

/-- What is done after a call that has returned. -/
def Res.andThen (r : Res E W A) (k : W → A → Res E W R) : Res E W R :=
  match r with
  | .ok w a => k w a
  | .threw w e => .threw w e
  | .ub => .ub
  | .terminated => .terminated

/-- A function that throws nothing itself, as in the other models. -/
def need (o : Outcome A) (k : A → Res E W R) : Res E W R :=
  match o with
  | .ok a => k a
  | _ => .ub

/-- A function handed to algorithm.hpp:17-126, numeric.hpp:12-34, tuple.hpp:198-224 and the others: from the arguments and the world, the
world afterwards and a result or an exception. -/
abbrev Fn (E W A R : Type) := A → W → W × Except E R

/-- A call of it, as at algorithm.hpp:23: an exception is handed on. -/
def call (f : Fn E W A R) (a : A) (w : W) : Res E W R :=
  match f a w with
  | (w, .ok r) => .ok w r
  | (w, .error e) => .threw w e

/-! ## algorithm.hpp and numeric.hpp -/

open Algorithm (World ITy incs)
open BitOps

/-- `*first, *first_n...`, algorithm.hpp:23, 36, 51, 63, 84. -/
def derefs (its : List Nat) (w : World α σ) (k : Res E (World α σ) R) : Res E (World α σ) R :=
  if its.all (fun p => decide (p < w.1.length)) then k else .ub

/-- `while (first != last) { body; ++first, ++first_n...; }`, algorithm.hpp:22-26, 50-53, numeric.hpp:16-20; `X` are the other
variables of the loop. -/
def whileRange (body : X → List Nat → W → Res E W X) (last : Nat) :
    Nat → X → Nat → List Nat → W → Res E W (X × List Nat)
  | fuel, x, first, rest, w =>
    if first = last then .ok w (x, first :: rest)
    else match fuel with
      | 0 => .ub
      | fuel + 1 => (body x (first :: rest) w).andThen fun w x => whileRange body last fuel x (first + 1) (incs rest) w

/-- `while (n-- > 0)` (or `n-- != 0`) with such a body, algorithm.hpp:35-39, 62-65, numeric.hpp:28-32. -/
def whileCount (t : ITy) (go : Int → Bool) (body : X → List Nat → W → Res E W X) :
    Nat → X → Int → List Nat → W → Res E W (X × List Nat)
  | fuel, x, n, its, w =>
    need (t.dec n) fun n' =>
      if go n then
        match fuel with
        | 0 => .ub
        | fuel + 1 => (body x its w).andThen fun w x => whileCount t go body fuel x n' (incs its) w
      else .ok w (x, its)

/-- `*d_first = std::invoke(op, *first, *first_n...)` and `++d_first`, algorithm.hpp:23-25, 36-38: the element is assigned after the
call. -/
def transformBody (op : Fn E (World α σ) (List Nat) α) (d : Nat) (its : List Nat) (w : World α σ) : Res E (World α σ) Nat :=
  derefs its w <|
    (call op its w).andThen fun w v => need (arrSet w.1 d v) fun mem => .ok (mem, w.2) (d + 1)

/-- `transform(first, last, d_first, op, first_n...)`, algorithm.hpp:17-28; the result is `{d_first, first, first_n...}`. -/
def transform (op : Fn E (World α σ) (List Nat) α) (first last d : Nat) (rest : List Nat) (w : World α σ) :
    Res E (World α σ) (Nat × List Nat) :=
  whileRange (transformBody op) last (w.1.length + 1) d first rest w

/-- `transform_n(first, n, d_first, op, first_n...)`, algorithm.hpp:30-41. -/
def transformN (t : ITy) (op : Fn E (World α σ) (List Nat) α) (first : Nat) (n : Int) (d : Nat) (rest : List Nat)
    (w : World α σ) : Res E (World α σ) (Nat × List Nat) :=
  whileCount t (fun n => decide (n > 0)) (transformBody op) (w.1.length + 1) d n (first :: rest) w

/-- `std::invoke(op, *first, *first_n...)`, algorithm.hpp:51, 63, 84. -/
def forEachBody (op : Fn E (World α σ) (List Nat) Unit) (_ : Unit) (its : List Nat) (w : World α σ) : Res E (World α σ) Unit :=
  derefs its w <| call op its w

/-- `for_each(first, last, op, first_n...)`, algorithm.hpp:46-55; the world includes `op`, the result is `first_n...`. -/
def forEach (op : Fn E (World α σ) (List Nat) Unit) (first last : Nat) (rest : List Nat) (w : World α σ) :
    Res E (World α σ) (List Nat) :=
  (whileRange (forEachBody op) last (w.1.length + 1) () first rest w).andThen fun w r => .ok w (r.2.drop 1)

/-- `for_each_n(first, n, op, first_n...)`, algorithm.hpp:57-67. -/
def forEachN (t : ITy) (op : Fn E (World α σ) (List Nat) Unit) (first : Nat) (n : Int) (rest : List Nat) (w : World α σ) :
    Res E (World α σ) (List Nat) :=
  (whileCount t (fun n => decide (n > 0)) (forEachBody op) (w.1.length + 1) () n (first :: rest) w).andThen fun w r => .ok w r.2

/-- The second loop of `for_each_butlastn` for forward iterators, algorithm.hpp:83-87. -/
def butlastLoop (op : Fn E (World α σ) (List Nat) Unit) (last : Nat) :
    Nat → Nat → List Nat → World α σ → Res E (World α σ) (List Nat)
  | fuel, adv, its, w =>
    if adv = last then .ok w its
    else match fuel with
      | 0 => .ub
      | fuel + 1 => (forEachBody op () its w).andThen fun w _ => butlastLoop op last fuel (adv + 1) (incs its) w

/-- `for_each_butlastn(first, last, n, op, first_n...)`, algorithm.hpp:69-106, for either category of iterators. -/
def forEachButlastn (c : Algorithm.Cat) (op : Fn E (World α σ) (List Nat) Unit) (first last : Nat) (n : Int) (rest : List Nat)
    (w : World α σ) : Res E (World α σ) (List Nat) :=
  match c with
  | .forward =>
    need (Algorithm.advance w.1.length last n.toNat first) fun adv =>
      butlastLoop op last (w.1.length + 1) adv (first :: rest) w
  | .random =>
    need (Algorithm.subPtrdiff ((last : Int) - (first : Int)) (Algorithm.toPtrdiff n)) fun k =>
      forEachN Algorithm.ptrdiff op first k rest w

/-- `initial_medial_final(first, last, iop, mop, fop)`, algorithm.hpp:114-126, with `for_each_butlast` (108-112). -/
def initialMedialFinal (c : Algorithm.Cat) (iop mop fop : Fn E (World α σ) (List Nat) Unit) (first last : Nat) (w : World α σ) :
    Res E (World α σ) Unit :=
  if first ≠ last then
    (forEachBody iop () [first] w).andThen fun w _ =>
    (forEachButlastn c mop (first + 1) last 1 [] w).andThen fun w its =>
      match its with
      | it :: _ => if it ≠ last then forEachBody fop () [it] w else .ok w ()
      | [] => .ub
  else .ok w ()

/-- `init = std::invoke(rop, std::move(init), std::invoke(top, *first, *first_n...))`, numeric.hpp:17-18, 29-30. -/
def reduceBody (rop : Fn E (World α σ) (β × τ) β) (top : Fn E (World α σ) (List Nat) τ) (init : β) (its : List Nat)
    (w : World α σ) : Res E (World α σ) β :=
  derefs its w <| (call top its w).andThen fun w y => call rop (init, y) w

/-- `transform_reduce(first, last, init, rop, top, first_n...)`, numeric.hpp:12-22. -/
def transformReduce (rop : Fn E (World α σ) (β × τ) β) (top : Fn E (World α σ) (List Nat) τ) (init : β) (first last : Nat)
    (rest : List Nat) (w : World α σ) : Res E (World α σ) β :=
  (whileRange (reduceBody rop top) last (w.1.length + 1) init first rest w).andThen fun w r => .ok w r.1

/-- `transform_reduce_n(first, n, init, rop, top, first_n...)`, numeric.hpp:24-34. -/
def transformReduceN (t : ITy) (rop : Fn E (World α σ) (β × τ) β) (top : Fn E (World α σ) (List Nat) τ) (init : β) (first : Nat)
    (n : Int) (rest : List Nat) (w : World α σ) : Res E (World α σ) β :=
  (whileCount t (fun n => decide (n ≠ 0)) (reduceBody rop top) (w.1.length + 1) init n (first :: rest) w).andThen
    fun w r => .ok w r.1

/-! ## Tuples -/

/-- Calls for a list of indices, in order, collecting the results: the expansion over `Is` at tuple_algorithms.hpp:187-190,
206, 233-235. -/
def calls (f : Nat → W → Res E W R) : List Nat → W → Res E W (List R)
  | [], w => .ok w []
  | i :: is, w => (f i w).andThen fun w r => (calls f is w).andThen fun w rs => .ok w (r :: rs)

/-- `invoke_at<I>(op, ts...)`, tuple_algorithms.hpp:169-172. -/
def invokeAt (op : Fn E W (List α) R) (ts : List (List α)) (i : Nat) (w : W) : Res E W R :=
  need (Tuple.column i ts) fun xs => call op xs w

/-- `transform(op, ts...)` without index functions, tuple_algorithms.hpp:181-193 and tuple.hpp:502-508: a braced initialiser, in order. -/
def tupleTransform (op : Fn E W (List α) R) (ts : List (List α)) : W → Res E W (List R) :=
  calls (invokeAt op ts) (List.range (Tuple.zipLength (ts.map List.length)))

/-- `transform<Fs...>(op, ts...)`, tuple_algorithms.hpp:194-198 and tuple.hpp:509-513: the calls are arguments of a function call,
evaluated in an unspecified order (`order`, a permutation of the indices). -/
def tupleTransformIndexed (op : Fn E W (List α) R) (ts : List (List α)) (order : List Nat) (w : W) : Res E W (List R) :=
  (calls (fun i w => (invokeAt op ts i w).andThen fun w r => .ok w (i, r)) order w).andThen fun w rs =>
    need (Tuple.mapO (fun i => match rs.find? (fun e => e.1 = i) with
      | some e => .ok e.2
      | none => .ub) (List.range (Tuple.zipLength (ts.map List.length)))) fun out => .ok w out

/-- `for_each(op, ts...)`, tuple_algorithms.hpp:203-218 and tuple.hpp:516-522. -/
def tupleForEach (op : Fn E W (List α) Unit) (ts : List (List α)) (w : W) : Res E W Unit :=
  (calls (invokeAt op ts) (List.range (Tuple.zipLength (ts.map List.length))) w).andThen fun w _ => .ok w ()

/-- `enumerate(op, ts...)`, tuple_algorithms.hpp:228-250. -/
def tupleEnumerate (op : Fn E W (Nat × List α) Unit) (ts : List (List α)) (w : W) : Res E W Unit :=
  (calls (fun i => invokeAt (fun xs => op (i, xs)) ts i) (List.range (Tuple.zipLength (ts.map List.length))) w).andThen
    fun w _ => .ok w ()

/-- `(... and es)` after `acc`: `((acc and e0) and e1) ...`, tuple_algorithms.hpp:262; for `or`, 284, with `stop = true`. -/
def shortFold (stop : Bool) (acc : W → Res E W Bool) : List (W → Res E W Bool) → W → Res E W Bool
  | [], w => acc w
  | e :: es, w => shortFold stop (fun w => (acc w).andThen fun w b => if b = stop then .ok w b else e w) es w

/-- `all_of(f, ts...)`, tuple_algorithms.hpp:258-278: the value for no elements is `true`. -/
def tupleAllOf (f : Fn E W (List α) Bool) (ts : List (List α)) (w : W) : Res E W Bool :=
  match (List.range (Tuple.zipLength (ts.map List.length))).map (invokeAt f ts) with
  | [] => .ok w true
  | e :: es => shortFold false e es w

/-- `any_of(f, ts...)`, tuple_algorithms.hpp:280-300: the value for no elements is `false`. -/
def tupleAnyOf (f : Fn E W (List α) Bool) (ts : List (List α)) (w : W) : Res E W Bool :=
  match (List.range (Tuple.zipLength (ts.map List.length))).map (invokeAt f ts) with
  | [] => .ok w false
  | e :: es => shortFold true e es w

/-- `none_of(f, ts...)`, tuple_algorithms.hpp:302-315. -/
def tupleNoneOf (f : Fn E W (List α) Bool) (ts : List (List α)) (w : W) : Res E W Bool :=
  (tupleAnyOf f ts w).andThen fun w b => .ok w (!b)

/-- `fold_left(init, op)`, tuple.hpp:114-126, 198-210: `((init + x0) + x1) + ...`.  (The function object is copied before each call; a
state of its own is not modelled here.) -/
def tupleFoldLeft (op : Fn E W (β × α) β) : β → List α → W → Res E W β
  | b, [], w => .ok w b
  | b, x :: xs, w => (call op (b, x) w).andThen fun w b => tupleFoldLeft op b xs w

/-- `fold_right(init, op)`, tuple.hpp:128-135, 212-224: `x0 + (x1 + ... (xn + init))`. -/
def tupleFoldRight (op : Fn E W (α × β) β) (init : β) : List α → W → Res E W β
  | [], w => .ok w init
  | x :: xs, w => (tupleFoldRight op init xs w).andThen fun w b => call op (x, b) w

/-! ## `for_each_n_args` -/

/-- `apply` and `exec`, for_each_n_args.hpp:19-27. -/
def execRows (f : Fn E W (List α) Unit) (t : List α) (batch : Nat) : List Nat → W → Res E W Unit
  | [], w => .ok w ()
  | r :: rs, w =>
    need (Tuple.mapO (fun c => Tuple.get t (r * batch + c)) (List.range batch)) fun xs =>
      (call f xs w).andThen fun w _ => execRows f t batch rs w

/-- `for_each_n_args<N>(f, args...)`, for_each_n_args.hpp:31-50. -/
def forEachNArgs (n arity : Nat) (f : Fn E W (List α) Unit) (args : List α) (w : W) : Res E W Unit :=
  let batch := if n = 0 then arity else n
  if batch = 0 then .ub
  else if args.length % batch = 0 then execRows f args batch (List.range (args.length / batch)) w
  else .ub

/-! ## Bitsets -/

/-- `set_bit::fn`, bitset.hpp:24-34, and the inner loop of `transform_reduce`, 168-173. -/
def setBitLoop {w : Nat} (f : X → Nat → W → Res E W X) (idx : Nat) : Nat → BitVec w → X → W → Res E W X
  | fuel, e, x, st =>
    if e = 0#w then .ok st x
    else match fuel with
      | 0 => .ub
      | fuel + 1 =>
        need (countrZero e) fun c =>
        need (cshl 1#w c.toNat) fun b =>
        (f x (idx + c.toNat) st).andThen fun st x => setBitLoop f idx fuel (e &&& ~~~b) x st

/-- `unset_bit::fn`, bitset.hpp:35-45. -/
def unsetBitLoop {w : Nat} (f : Nat → W → Res E W Unit) (mask : BitVec w) (idx : Nat) : Nat → BitVec w → W → Res E W Unit
  | fuel, e, st =>
    if e = mask then .ok st ()
    else match fuel with
      | 0 => .ub
      | fuel + 1 =>
        need (countrOne e) fun c =>
        need (cshl 1#w c.toNat) fun b =>
        (f (idx + c.toNat) st).andThen fun st _ => unsetBitLoop f mask idx fuel (e ||| b) st

/-- `bit::fn`, bitset.hpp:46-55, with `k` iterations left from `i`. -/
def eachBitLoop {w : Nat} (f : Nat × Bool → W → Res E W Unit) (e : BitVec w) (idx : Nat) : Nat → Nat → W → Res E W Unit
  | 0, _, st => .ok st ()
  | k + 1, i, st =>
    need (cshl 1#w i) fun b =>
    (f (idx + i, (e &&& b) != 0#w) st).andThen fun st _ => eachBitLoop f e idx k (i + 1) st

/-- `Spec::fn`, bitset.hpp:24-55: the flag is the constant of the specification for `set_bit` and `unset_bit`. -/
def specFn {w : Nat} (sp : Bitset.Spec) (mask e : BitVec w) (idx : Nat) (f : Fn E W (Nat × Bool) Unit) (st : W) : Res E W Unit :=
  match sp with
  | .setBit => setBitLoop (fun _ i => call f (i, true)) idx w e () st
  | .unsetBit => unsetBitLoop (fun i => call f (i, false)) mask idx w e st
  | .bit => eachBitLoop (call f) e idx (popcount mask) 0 st

/-- The loop of the member `for_each`, bitset.hpp:150-156. -/
def bitsetForEachLoop {w : Nat} (sp : Bitset.Spec) (f : Fn E W (Nat × Bool) Unit) (s : Bitset.Words w) :
    Nat → Nat → Nat → W → Res E W Nat
  | 0, _, idx, st => .ok st idx
  | k + 1, i, idx, st =>
    need (arrGet s i) fun e =>
    (specFn sp (BitVec.allOnes w) e idx f st).andThen fun st _ => bitsetForEachLoop sp f s k (i + 1) (idx + w) st

/-- `for_each<Spec>(f, bs)`, bitset.hpp:148-159, 499-507. -/
def bitsetForEach {w : Nat} (sp : Bitset.Spec) (N : Nat) (f : Fn E W (Nat × Bool) Unit) (s : Bitset.Words w) (st : W) :
    Res E W Unit :=
  (bitsetForEachLoop sp f s (szDec (Bitset.storageSize w N)) 0 0 st).andThen fun st idx =>
    need (Bitset.highbits N s) fun h => specFn sp (Bitset.lastmask w N) h idx f st

/-- `init = r(std::move(init), f(i + offset))`, bitset.hpp:171-172. -/
def bitsetReduceBody (f : Fn E W Nat τ) (r : Fn E W (β × τ) β) (init : β) (p : Nat) (st : W) : Res E W β :=
  (call f p st).andThen fun st y => call r (init, y) st

/-- `transform_reduce(f, r, init, bs)`, bitset.hpp:164-177, 509-520. -/
def bitsetReduceLoop {w : Nat} (f : Fn E W Nat τ) (r : Fn E W (β × τ) β) : Bitset.Words w → Nat → β → W → Res E W β
  | [], _, acc, st => .ok st acc
  | e :: es, i, acc, st =>
    (setBitLoop (bitsetReduceBody f r) i w e acc st).andThen fun st acc => bitsetReduceLoop f r es (i + w) acc st

/-! ## `resize_and_overwrite` -/

/-- `resize_and_overwrite(v, f)`, cx_vector.hpp:143-147: the function is given the whole storage and its length, and may change the
vector; the size is assigned when it has returned. -/
def resizeAndOverwrite (f : Fn E (Buf.Buf α × σ) Nat Nat) (w : Buf.Buf α × σ) : Res E (Buf.Buf α × σ) Unit :=
  (call f w.1.storage.length w).andThen fun w n => .ok (⟨w.1.storage, n⟩, w.2) ()

end Verif.Unwind
