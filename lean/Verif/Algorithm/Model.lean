import Verif.Base

/-!
# Model of `algorithm.hpp` and the algorithms of `numeric.hpp`
(/repo/include/stdx/algorithm.hpp:17-126, numeric.hpp:12-34)

All ranges live in one memory, a list of elements; an iterator is a position in it, so the ranges may
overlap and an output range may be an input range.  Dereferencing or writing outside the memory is
undefined.  An operation gets references, that is positions, and may read and write any element as well as a
state `σ` of its own (which includes the function object itself): it is a function on the world
`List α × σ`.  Simplified: elements have one type (a sum type stands for several), and operations do not
throw.  `while` loops take fuel; running out of it (which happens only after leaving the memory) is
undefined.
-/

namespace Verif.Algorithm

/-- What the operations handed to algorithm.hpp:17-126 can read and write: the elements and anything else. -/
abbrev World (α σ : Type) : Type := List α × σ

/-- `*first, *first_n...`, algorithm.hpp:23, 36, 51, 63, 84: the references are good if the positions are in
the memory. -/
def derefs {α : Type} (mem : List α) (ps : List Nat) : Outcome Unit :=
  if ps.all (fun p => decide (p < mem.length)) then .ok () else .ub

/-- `++first, ++first_n...`, algorithm.hpp:24, 37, 52, 64, 85. -/
def incs (ps : List Nat) : List Nat := ps.map (· + 1)

/-- An integer type for the `Size` parameter of algorithm.hpp:30, 57 and numeric.hpp:24. -/
structure ITy where
  signed : Bool
  width : Nat

/-- Values of the type of the parameter `n` of algorithm.hpp:32, 59 and numeric.hpp:26. -/
def ITy.Rep (t : ITy) (n : Int) : Prop :=
  if t.signed then -2 ^ (t.width - 1) ≤ n ∧ n < 2 ^ (t.width - 1) else 0 ≤ n ∧ n < 2 ^ t.width

/-- `n - 1` of `n--`, algorithm.hpp:35, 62, numeric.hpp:28: unsigned types wrap; the least value of a signed
type of at least 32 bits overflows, of a shorter one wraps after promotion. -/
def ITy.dec (t : ITy) (n : Int) : Outcome Int :=
  if t.signed then
    if n = -2 ^ (t.width - 1) then (if 32 ≤ t.width then .ub else .ok (2 ^ (t.width - 1) - 1)) else .ok (n - 1)
  else if n = 0 then .ok (2 ^ t.width - 1) else .ok (n - 1)

variable {α β τ σ X : Type}

/-- `while (first != last) { call; ++first, ++first_n...; }`, algorithm.hpp:22-26, 50-53, numeric.hpp:16-20. -/
def whileRange (call : X → List Nat → Outcome X) (last : Nat) :
    Nat → X → Nat → List Nat → Outcome (X × List Nat)
  | fuel, x, first, rest =>
    if first = last then .ok (x, first :: rest)
    else match fuel with
      | 0 => .ub
      | fuel + 1 => do
        let x ← call x (first :: rest)
        whileRange call last fuel x (first + 1) (incs rest)

/-- `while (n-- > 0)` (or `n-- != 0`) with such a body, algorithm.hpp:35-39, 62-65, numeric.hpp:28-32. -/
def whileCount (t : ITy) (go : Int → Bool) (call : X → List Nat → Outcome X) :
    Nat → X → Int → List Nat → Outcome (X × List Nat)
  | fuel, x, n, its => do
    let n' ← t.dec n
    if go n then
      match fuel with
      | 0 => .ub
      | fuel + 1 => do
        let x ← call x its
        whileCount t go call fuel x n' (incs its)
    else .ok (x, its)

/-- `*d_first = std::invoke(op, *first, *first_n...)` and `++d_first`, algorithm.hpp:23-25, 36-38. -/
def transformCall (op : List Nat → World α σ → α × World α σ) (x : World α σ × Nat) (its : List Nat) :
    Outcome (World α σ × Nat) := do
  derefs x.1.1 its
  let r := op its x.1
  let mem ← arrSet r.2.1 x.2 r.1
  return ((mem, r.2.2), x.2 + 1)

/-- The result of `transform`, algorithm.hpp:27, 40: the world and `{d_first, first, first_n...}`. -/
structure TransformResult (α σ : Type) where
  mem : List α
  st : σ
  out : Nat
  its : List Nat
  deriving DecidableEq

/-- `transform(first, last, d_first, op, first_n...)`, algorithm.hpp:17-28. -/
def transform (op : List Nat → World α σ → α × World α σ) (mem : List α) (s : σ) (first last d : Nat)
    (rest : List Nat) : Outcome (TransformResult α σ) := do
  let r ← whileRange (transformCall op) last (mem.length + 1) ((mem, s), d) first rest
  return ⟨r.1.1.1, r.1.1.2, r.1.2, r.2⟩

/-- `transform_n(first, n, d_first, op, first_n...)`, algorithm.hpp:30-41. -/
def transformN (t : ITy) (op : List Nat → World α σ → α × World α σ) (mem : List α) (s : σ) (first : Nat) (n : Int)
    (d : Nat) (rest : List Nat) : Outcome (TransformResult α σ) := do
  let r ← whileCount t (fun n => decide (n > 0)) (transformCall op) (mem.length + 1) ((mem, s), d) n (first :: rest)
  return ⟨r.1.1.1, r.1.1.2, r.1.2, r.2⟩

/-- `std::invoke(op, *first, *first_n...)`, algorithm.hpp:51, 63, 84. -/
def forEachCall (op : List Nat → World α σ → World α σ) (w : World α σ) (its : List Nat) : Outcome (World α σ) := do
  derefs w.1 its
  return op its w

/-- `for_each(first, last, op, first_n...)`, algorithm.hpp:46-55: returns only `{op, first_n...}`. -/
def forEach (op : List Nat → World α σ → World α σ) (w : World α σ) (first last : Nat) (rest : List Nat) :
    Outcome (World α σ × List Nat) := do
  let r ← whileRange (forEachCall op) last (w.1.length + 1) w first rest
  return (r.1, r.2.drop 1)

/-- `for_each_n(first, n, op, first_n...)`, algorithm.hpp:57-67. -/
def forEachN (t : ITy) (op : List Nat → World α σ → World α σ) (w : World α σ) (first : Nat) (n : Int)
    (rest : List Nat) : Outcome (World α σ × List Nat) :=
  whileCount t (fun n => decide (n > 0)) (forEachCall op) (w.1.length + 1) w n (first :: rest)

/-- The loop that advances `adv_it` by at most `n`, algorithm.hpp:75-81; `n` counts the remaining
iterations.  Incrementing an iterator past the end of the memory is undefined. -/
def advance (len last : Nat) : Nat → Nat → Outcome Nat
  | 0, adv => .ok adv
  | n + 1, adv =>
    if adv = last then .ok adv
    else if adv < len then advance len last n (adv + 1) else .ub

/-- The second loop of the forward version, algorithm.hpp:83-87. -/
def butlastLoop (op : List Nat → World α σ → World α σ) (last : Nat) :
    Nat → World α σ → Nat → List Nat → Outcome (World α σ × List Nat)
  | fuel, w, adv, its =>
    if adv = last then .ok (w, its)
    else match fuel with
      | 0 => .ub
      | fuel + 1 => do
        let w ← forEachCall op w its
        butlastLoop op last fuel w (adv + 1) (incs its)

/-- `for_each_butlastn` for forward iterators, algorithm.hpp:70-89; a negative `n` makes no iteration of
the first loop. -/
def butlastFwd (op : List Nat → World α σ → World α σ) (w : World α σ) (first last : Nat) (n : Int)
    (rest : List Nat) : Outcome (World α σ × List Nat) := do
  let adv ← advance w.1.length last n.toNat first
  butlastLoop op last (w.1.length + 1) w adv (first :: rest)

/-- `std::ptrdiff_t`, 64 bits: the type of `sz` at algorithm.hpp:95. -/
def ptrdiff : ITy := ⟨true, 64⟩

/-- `static_cast<std::ptrdiff_t>(n)`, algorithm.hpp:96. -/
def toPtrdiff (n : Int) : Int := (n + 2 ^ 63) % 2 ^ 64 - 2 ^ 63

/-- Subtraction in `std::ptrdiff_t`, algorithm.hpp:96. -/
def subPtrdiff (a b : Int) : Outcome Int :=
  if -2 ^ 63 ≤ a - b ∧ a - b < 2 ^ 63 then .ok (a - b) else .ub

/-- `for_each_butlastn` for random access iterators, algorithm.hpp:91-97. -/
def butlastRand (op : List Nat → World α σ → World α σ) (w : World α σ) (first last : Nat) (n : Int)
    (rest : List Nat) : Outcome (World α σ × List Nat) := do
  let sz : Int := (last : Int) - (first : Int)
  let k ← subPtrdiff sz (toPtrdiff n)
  forEachN ptrdiff op w first k rest

/-- The iterator category that selects an overload, algorithm.hpp:71, 92, 104. -/
inductive Cat where
  | forward
  | random

/-- `for_each_butlastn(first, last, n, op, first_n...)`, algorithm.hpp:100-106. -/
def forEachButlastn (c : Cat) (op : List Nat → World α σ → World α σ) (w : World α σ) (first last : Nat) (n : Int)
    (rest : List Nat) : Outcome (World α σ × List Nat) :=
  match c with
  | .forward => butlastFwd op w first last n rest
  | .random => butlastRand op w first last n rest

/-- `for_each_butlast(first, last, op, first_n...)`, algorithm.hpp:108-112. -/
def forEachButlast (c : Cat) (op : List Nat → World α σ → World α σ) (w : World α σ) (first last : Nat)
    (rest : List Nat) : Outcome (World α σ × List Nat) :=
  forEachButlastn c op w first last 1 rest

/-- A call of a unary operation on each position of an argument list (of length one here): the `mop` of
algorithm.hpp:119. -/
def unary (mop : Nat → World α σ → World α σ) (its : List Nat) (w : World α σ) : World α σ :=
  its.foldl (fun w p => mop p w) w

/-- `initial_medial_final(first, last, iop, mop, fop)`, algorithm.hpp:114-126; the states of the three
operations are parts of `σ`. -/
def initialMedialFinal (c : Cat) (iop mop fop : Nat → World α σ → World α σ) (w : World α σ) (first last : Nat) :
    Outcome (World α σ) :=
  if first ≠ last then do
    derefs w.1 [first]
    let w := iop first w
    let first := first + 1
    let r ← forEachButlast c (unary mop) w first last []
    match r.2 with
    | it :: _ =>
      if it ≠ last then do
        derefs r.1.1 [it]
        return fop it r.1
      else return r.1
    | [] => .ub
  else .ok w

/-- `init = std::invoke(rop, std::move(init), std::invoke(top, *first, *first_n...))`, numeric.hpp:17-18,
29-30. -/
def reduceCall (rop : β → τ → World α σ → β × World α σ) (top : List Nat → World α σ → τ × World α σ)
    (x : β × World α σ) (its : List Nat) : Outcome (β × World α σ) := do
  derefs x.2.1 its
  let y := top its x.2
  return rop x.1 y.1 y.2

/-- `transform_reduce(first, last, init, rop, top, first_n...)`, numeric.hpp:12-22. -/
def transformReduce (rop : β → τ → World α σ → β × World α σ) (top : List Nat → World α σ → τ × World α σ)
    (w : World α σ) (init : β) (first last : Nat) (rest : List Nat) : Outcome (β × World α σ) := do
  let r ← whileRange (reduceCall rop top) last (w.1.length + 1) (init, w) first rest
  return r.1

/-- `transform_reduce_n(first, n, init, rop, top, first_n...)`, numeric.hpp:24-34: `n-- != 0`. -/
def transformReduceN (t : ITy) (rop : β → τ → World α σ → β × World α σ)
    (top : List Nat → World α σ → τ × World α σ) (w : World α σ) (init : β) (first : Nat) (n : Int)
    (rest : List Nat) : Outcome (β × World α σ) := do
  let r ← whileCount t (fun n => decide (n ≠ 0)) (reduceCall rop top) (w.1.length + 1) (init, w) n (first :: rest)
  return r.1

end Verif.Algorithm
