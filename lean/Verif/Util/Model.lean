import Verif.Tuple.Model

/-! # Type maps, size conversion, alignment, batches, bound functions
(utility.hpp, for_each_n_args.hpp, functional.hpp) -/

namespace Verif.Util

open Verif.Tuple

variable {α β γ κ ν σ : Type}

/-! ## `type_map` -/

/-- `type_map<Ts...>`, utility.hpp:31, derives from every pair: a pair given twice is an error. `shrink_t` and `expand`
leave the type as it is. -/
def mapOk [DecidableEq κ] [DecidableEq ν] (m : List (κ × ν)) : Outcome Unit := if m.Nodup then .ok () else .ub

/-- `lookup<K, Default>(expand<M>())`, utility.hpp:49-52 (used at 60-61 and 67-69): overload resolution. The parameter `type_pair<K, V>` is deduced from
the bases; if two bases fit with different `V` deduction fails and the overload with the ellipsis is left. -/
def lookup [DecidableEq κ] [DecidableEq ν] (m : List (κ × ν)) (k : κ) (d : ν) : Outcome ν := do
  mapOk m
  match m.filter fun p => p.1 = k with
  | [p] => return p.2
  | _ => return d

/-- `reverse_lookup<V, Default>`, utility.hpp:54-57 (used at 63-65 and 71-73). -/
def reverseLookup [DecidableEq κ] [DecidableEq ν] (m : List (κ × ν)) (v : ν) (d : κ) : Outcome κ := do
  mapOk m
  match m.filter fun p => p.2 = v with
  | [p] => return p.1
  | _ => return d

/-- `type_lookup_v<M, K, Default>` and `value_lookup_v`, utility.hpp:80-84 and 92-96: looked up with the default `void` (`none`), which
is then replaced. -/
def lookupV [DecidableEq κ] [DecidableEq ν] (m : List (κ × Option ν)) (k : κ) (d : ν) : Outcome ν := do
  let r ← lookup m k none
  match r with
  | some v => return v
  | none => return d

/-- `reverse_type_lookup_v<M, V, Default>` and `reverse_value_lookup_v`, utility.hpp:86-90 and 98-103. -/
def reverseLookupV [DecidableEq κ] [DecidableEq ν] (m : List (Option κ × ν)) (v : ν) (d : κ) : Outcome κ := do
  let r ← reverseLookup m v none
  match r with
  | some k => return k
  | none => return d

/-! ## `sized` -/

/-- `size_conversion<T, U>(sz)`, utility.hpp:140-149 (used at 154-156 and 168), with `sizeof(T) = sT`, `sizeof(U) = sU`, in `std::size_t` of `w` bits.
Unsigned subtraction `x - 1` is `x + (2^w - 1)`. -/
def sizeConversion (w sT sU sz : Nat) : Nat :=
  if sT = sU then sz
  else if sT > sU then (sz * sT % 2 ^ w / sU + (if sT % sU > 0 then 1 else 0)) % 2 ^ w
  else ((sz * sT % 2 ^ w + sU) % 2 ^ w + (2 ^ w - 1)) % 2 ^ w / sU

/-! ## `is_aligned_with` -/

/-- `is_aligned_with<T>(v)` for integral `v`, utility.hpp:237-249, with `alignof(T) = a` and a `std::uintptr_t` of `w` bits; the
conversion of a negative value is modulo `2^w`. -/
def isAlignedInt (w a : Nat) (v : Int) : Bool := (BitVec.ofInt w v &&& (BitVec.ofNat w a - 1#w)) == 0#w

/-- The same for a pointer with the address `p`, utility.hpp:244-245. -/
def isAlignedPtr (w a : Nat) (p : BitVec w) : Bool := (p &&& (BitVec.ofNat w a - 1#w)) == 0#w

/-! ## `for_each_n_args` -/

/-- `exec<RowIndex>(f, t)`, for_each_n_args.hpp:24-27. -/
def exec (f : List α → σ → σ) (t : List α) (batch row : Nat) (s : σ) : Outcome σ := do
  let xs ← mapO (fun c => get t (row + c)) (List.range batch)
  return f xs s

/-- `apply`, for_each_n_args.hpp:19-21. -/
def execRows (f : List α → σ → σ) (t : List α) (batch : Nat) : List Nat → σ → Outcome σ
  | [], s => .ok s
  | r :: rs, s => do
    let s ← exec f t batch (r * batch) s
    execRows f t batch rs s

/-- `for_each_n_args<N>(f, args...)`, for_each_n_args.hpp:31-50, with the arity of `f`; a remainder by zero or a wrong number
of arguments does not compile. -/
def forEachNArgs (n arity : Nat) (f : List α → σ → σ) (args : List α) (s : σ) : Outcome σ :=
  let batch := if n = 0 then arity else n
  if batch = 0 then .ub
  else if args.length % batch = 0 then execRows f args batch (List.range (args.length / batch)) s
  else .ub

/-! ## `bind_front`, `bind_back`

A callable with state `σ` takes its arguments by reference: it gives a result, the arguments as it leaves them and
its new state. -/

/-- A callable, `f` of functional.hpp:40 and 96 or `F` of 69 and 125. -/
abbrev Callable (α β σ : Type) := List α → σ → β × List α × σ

/-- `bind_front_t::operator() &`, functional.hpp:43-53 and 72-81: the bound arguments come first; they are passed as lvalues,
so that changes made to them stay. -/
def bindFront (f : Callable α β σ) : Callable α β (List α × σ) := fun args st =>
  let r := f (st.1 ++ args) st.2
  (r.1, r.2.1.drop st.1.length, (r.2.1.take st.1.length, r.2.2))

/-- `bind_back_t::operator() &`, functional.hpp:99-109 and 128-137. -/
def bindBack (f : Callable α β σ) : Callable α β (List α × σ) := fun args st =>
  let r := f (args ++ st.1) st.2
  (r.1, r.2.1.take args.length, (r.2.1.drop args.length, r.2.2))

/-- A sequence of calls of one object (functional.hpp:47-49 and the like). -/
def callSeq (f : Callable α β σ) : List (List α) → σ → List (β × List α) × σ
  | [], s => ([], s)
  | a :: as, s =>
    let r := f a s
    let q := callSeq f as r.2.2
    ((r.1, r.2.1) :: q.1, q.2)

/-! ## Calls of bound functions, with value categories and references as results -/

/-- How a call is made on an object, or an argument passed: as a const lvalue, an lvalue or an rvalue (the three overloads of
functional.hpp:43-53). -/
inductive Cat
  | clv
  | lv
  | rv
  deriving DecidableEq

/-- What a function returns: a value, or a reference to a place. -/
inductive Ret (β : Type)
  | val (b : β)
  | ref (place : Nat)

/-- A function called as `self`, with arguments passed in their categories: its result, what it leaves in the arguments, its new
state. -/
abbrev Fn (α β σ : Type) := Cat → List (Cat × α) → σ → Ret β × List α × σ

/-- The return type `auto` of every `operator()` (functional.hpp:44, 47, 50 and so on): a reference is read. -/
def decayRet (read : σ → Nat → β) (s : σ) : Ret β → Ret β
  | .val b => .val b
  | .ref p => .val (read s p)

/-- `operator()` of `bind_front_t` and `bind_front_value_t` (`isValue`), functional.hpp:43-53, 72-81, on an object of category `obj`: the
function and the bound arguments have the category of the object, but a function that is a template argument is const. -/
def callFront (read : σ → Nat → β) (isValue : Bool) (f : Fn α β σ) (obj : Cat) (args : List (Cat × α)) (st : List α × σ) :
    Ret β × List α × (List α × σ) :=
  let r := f (if isValue then .clv else obj) (st.1.map (obj, ·) ++ args) st.2
  (decayRet read r.2.2 r.1, r.2.1.drop st.1.length, (r.2.1.take st.1.length, r.2.2))

/-- `operator()` of `bind_back_t` and `bind_back_value_t`, functional.hpp:99-109, 128-137. -/
def callBack (read : σ → Nat → β) (isValue : Bool) (f : Fn α β σ) (obj : Cat) (args : List (Cat × α)) (st : List α × σ) :
    Ret β × List α × (List α × σ) :=
  let r := f (if isValue then .clv else obj) (args ++ st.1.map (obj, ·)) st.2
  (decayRet read r.2.2 r.1, r.2.1.take args.length, (r.2.1.drop args.length, r.2.2))

/-- What can be bound: an object with a call operator, a pointer to a function, the name of a function, a pointer to a member (the
arguments `f` of functional.hpp:58 and `F` of 85). -/
inductive Callee
  | object
  | pointer
  | function
  | member
  deriving DecidableEq

/-- What the bound object calls.  `bind_front(f, …)` and `bind_back(f, …)` store an `std::remove_cvref_t<F>`
(functional.hpp:57-63, 113-119), and there are no members of function type (40, 96); as a template argument (69, 125) the name
of a function is a pointer. -/
def stored (isValue : Bool) : Callee → Option Callee
  | .function => if isValue then some .pointer else none
  | c => some c

/-- The calls `f(…)` and `F(…)`, functional.hpp:45, 48, 51, 74, 77, 80, 101, 104, 107, 130, 133 and 136: a pointer to a member cannot
be called in this way. -/
def callForm : Callee → Bool
  | .member => false
  | _ => true

/-- Whether binding `c` and calling the result compiles, functional.hpp:57-63, 85-89, 113-119 and 141-145. -/
def bindable (isValue : Bool) (c : Callee) : Bool :=
  match stored isValue c with
  | some d => callForm d
  | none => false

/-- Calls of one bound object, each in some category (functional.hpp:43-53 and the like): the results. -/
def callAll (call : Cat → List (Cat × α) → List α × σ → Ret β × List α × (List α × σ)) :
    List (Cat × List (Cat × α)) → List α × σ → List (Ret β) × (List α × σ)
  | [], st => ([], st)
  | c :: cs, st =>
    let r := call c.1 c.2 st
    let q := callAll call cs r.2.2
    (r.1 :: q.1, q.2)

end Verif.Util
