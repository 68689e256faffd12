import Verif.Tuple.Model
import Verif.Bitset.Model

/-!
# Model of how a function object is passed to `for_each` and `enumerate`, and given back

tuple.hpp:516-522 (one `stdx::tuple` or `stdx::indexed_tuple`), tuple_algorithms.hpp:203-255 (anything else), and
`for_each` over a bitset, bitset.hpp:148-159, 499-507.  The calls themselves are those of `Verif.Tuple` and
`Verif.Bitset`; here is which object receives them, and what the caller gets back.

Simplified: a function object that is called as const is not changed by the call (`mutable` members are left out).
-/

namespace Verif.Callee

variable {α σ : Type}

/-- How the function object is passed: `Op` of the forwarding reference `Op &&op` (tuple_algorithms.hpp:204) is
`F &`, `F const &`, `F` or `F const`. -/
inductive Passed where
  | lvalue
  | constLvalue
  | rvalue
  | constRvalue
  deriving DecidableEq

def Passed.const : Passed → Bool
  | .constLvalue | .constRvalue => true
  | _ => false

/-- What the type of a function object can do: be called as const, be copied, be initialised from a non-const
rvalue.  What tuple_algorithms.hpp:204-208 and tuple.hpp:517-521 ask of `Op`. -/
structure FnTy where
  constCall : Bool
  copyable : Bool
  movable : Bool
  deriving DecidableEq

/-- What the caller gets: a reference to the object passed, a new object, or a reference to an object that is gone
(the return type `Op`, tuple.hpp:517 and tuple_algorithms.hpp:204). -/
inductive Ret (σ : Type) where
  | object
  | value (s : σ)
  | dangling
  deriving DecidableEq

/-- A call that does not compile, or the result with the state of the object that was passed (`none`: moved from);
the body and return type at tuple.hpp:517-521. -/
inductive Res (σ : Type) where
  | illFormed
  | done (ret : Ret σ) (passed : Option σ)
  deriving DecidableEq

/-- `return op;` where `op` is the parameter `Op &&op` and the return type is `Op` (tuple_algorithms.hpp:208, 238 and
bitset.hpp:694): an rvalue reference parameter is moved from.  `return std::forward<F>(f);` (bitset.hpp:158) does
the same. -/
def giveBack (F : FnTy) (p : Passed) (s : σ) : Res σ :=
  match p with
  | .lvalue | .constLvalue => .done .object (some s)
  | .rvalue => if F.movable then .done (.value s) none else .illFormed
  | .constRvalue => if F.copyable then .done (.value s) (some s) else .illFormed

/-- The lambda of tuple.hpp:518-521 captures `op` by reference and returns a copy of it; the return type `Op` of
`for_each` is then initialised from that temporary object: a reference to non-const does not bind to it, and a reference
to const outlives it. -/
def giveBackCopy (F : FnTy) (p : Passed) (s : σ) : Res σ :=
  if F.copyable then
    match p with
    | .lvalue => .illFormed
    | .constLvalue => .done .dangling (some s)
    | .rvalue | .constRvalue => .done (.value s) (some s)
  else .illFormed

/-- A call of `op` inside an algorithm (tuple_algorithms.hpp:171, 230, tuple.hpp:519): `op` names the object passed. -/
def callee (p : Passed) (op : Nat → List α → σ → σ) : Nat → List α → σ → σ :=
  fun i xs s => if p.const then s else op i xs s

/-- `op(...)` compiles (tuple_algorithms.hpp:171, 230, tuple.hpp:519): needed only if there is a call. -/
def callable (F : FnTy) (p : Passed) (calls : Nat) : Bool :=
  !p.const || F.constCall || calls == 0

/-- `detail::unrolled_for_each` and the functions that forward to it, tuple_algorithms.hpp:203-225. -/
def forEachMany (F : FnTy) (p : Passed) (op : List α → σ → σ) (ts : List (List α)) (s : σ) : Outcome (Res σ) := do
  if callable F p (Tuple.zipLength (ts.map List.length)) then
    let s' ← Tuple.forEach (callee p (fun _ => op) 0) ts s
    return giveBack F p s'
  else return .illFormed

/-- `for_each(op, t)` for one `stdx::tuple` or `stdx::indexed_tuple`, tuple.hpp:516-522. -/
def forEachOne (F : FnTy) (p : Passed) (op : List α → σ → σ) (t : List α) (s : σ) : Outcome (Res σ) := do
  if callable F p t.length then
    let s' ← Tuple.forEach (callee p (fun _ => op) 0) [t] s
    return giveBackCopy F p s'
  else return .illFormed

/-- `for_each(op, ts...)` with tuples only: the overload for one tuple (tuple.hpp:516) is the more specialised one, and
is called when there is one; the other (tuple_algorithms.hpp:212-219) rejects a call without any. -/
def forEach (F : FnTy) (p : Passed) (op : List α → σ → σ) (ts : List (List α)) (s : σ) : Outcome (Res σ) :=
  match ts with
  | [] => .ok .illFormed
  | [t] => forEachOne F p op t s
  | ts => forEachMany F p op ts s

/-- `enumerate(op, ts...)` with tuples only, tuple_algorithms.hpp:227-255: rejected without any. -/
def enumerate (F : FnTy) (p : Passed) (op : Nat → List α → σ → σ) (ts : List (List α)) (s : σ) : Outcome (Res σ) :=
  match ts with
  | [] => .ok .illFormed
  | ts => do
    if callable F p (Tuple.zipLength (ts.map List.length)) then
      let s' ← Tuple.enumerate (callee p op) ts s
      return giveBack F p s'
    else return .illFormed

/-- `for_each<Spec>(f, bs)` over a bitset, bitset.hpp:499-507 and 148-159: the calls are not unrolled, so they have to compile
even if none is made. -/
def forEachBits {w : Nat} (F : FnTy) (p : Passed) (sp : Bitset.Spec) (N : Nat) (f : σ → Nat × Bool → σ) (bs : Bitset.Words w)
    (s : σ) : Outcome (Res σ) := do
  if callable F p 1 then
    let s' ← Bitset.forEach sp N (fun s c => if p.const then s else f s c) bs s
    return giveBack F p s'
  else return .illFormed

end Verif.Callee
