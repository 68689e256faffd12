import Verif.Tuple.Model

/-! # `call_by_need` (call_by_need.hpp)

`τ` are argument types, `callable N ts` says that `invoke_result_t<nth_t<N, Fs...>, ts...>` is well-formed. -/

namespace Verif.Need

open Verif.Tuple

variable {α β τ σ : Type}

/-- `call_info`, call_by_need.hpp:19-27. -/
structure CallInfo where
  fnIdx : Nat
  argBase : Nat
  argLen : Nat
  deriving DecidableEq, Repr

/-- `uses_arg`, call_by_need.hpp:24-26. -/
def usesArg (c : CallInfo) (n : Nat) : Bool := decide (n ≥ c.argBase) && decide (n < c.argBase + c.argLen)

/-- The state captured by reference: `results` and `result_count`, call_by_need.hpp:68-69. -/
structure Search where
  results : List CallInfo
  count : Nat

/-- The arguments `nth_t<Base + Is, Args...>...` for `Is` below `Len`, call_by_need.hpp:76-78 (types) and
54-61 (values). -/
def block (ts : List α) (base len : Nat) : Outcome (List α) := mapO (fun i => get ts (base + i)) (List.range len)

/-- `test<N, Base, Len>`, call_by_need.hpp:71-84. -/
def test (callable : Nat → List τ → Bool) (ts : List τ) (N base len : Nat) (s : Search) : Outcome (Bool × Search) := do
  let b ← block ts base len
  if callable N b then do
    let r ← arrSet s.results s.count ⟨N, base, len⟩
    return (true, ⟨r, s.count + 1⟩)
  else
    return (false, s)

/-- `(... or f<I>())`: a fold with the short-circuiting operator, call_by_need.hpp:89-90 and 98-100. -/
def orLoop (f : Nat → Search → Outcome (Bool × Search)) : List Nat → Search → Outcome (Bool × Search)
  | [], s => .ok (false, s)
  | i :: is, s => do
    let r ← f i s
    if r.1 then return r else orLoop f is r.2

/-- `inner_loop<N, Base>`, call_by_need.hpp:86-92. -/
def innerLoop (callable : Nat → List τ → Bool) (ts : List τ) (N base : Nat) (s : Search) : Outcome (Bool × Search) :=
  let maxLen := ts.length - base
  orLoop (fun l => test callable ts N base (maxLen - l)) (List.range (maxLen + 1)) s

/-- `outer_loop<N>`, call_by_need.hpp:94-101. -/
def outerLoop (callable : Nat → List τ → Bool) (ts : List τ) (N : Nat) (s : Search) : Outcome (Bool × Search) := do
  let r ← if ts.length = 0 then test callable ts N 0 0 s else .ok (false, s)
  if r.1 then return r
  else orLoop (fun b => innerLoop callable ts N b) (List.range ts.length) r.2

/-- The loop over the functions, call_by_need.hpp:103-105. -/
def searchAll (callable : Nat → List τ → Bool) (ts : List τ) : List Nat → Search → Outcome Search
  | [], s => .ok s
  | n :: ns, s => do
    let r ← outerLoop callable ts n s
    searchAll callable ts ns r.2

/-- `truncate_array<R>`, call_by_need.hpp:29-34. -/
def truncate (r : Nat) (a : List CallInfo) : Outcome (List CallInfo) := mapO (arrGet a) (List.range r)

/-- The loop that collects the unused arguments, call_by_need.hpp:126-134. -/
def unusedLoop (nf : Nat) (given : List CallInfo) : List Nat → Search → Outcome Search
  | [], s => .ok s
  | i :: is, s =>
    if given.all fun c => !usesArg c i then do
      let r ← arrSet s.results s.count ⟨nf, i, 1⟩
      unusedLoop nf given is ⟨r, s.count + 1⟩
    else unusedLoop nf given is s

/-- `compute_call_info<Args...>` for `nf` functions, call_by_need.hpp:66-142. Compilation fails (`ub`) when some function
has no call.  `concat` (36-43) is `++`. -/
def computeCallInfo (callable : Nat → List τ → Bool) (nf : Nat) (ts : List τ) : Outcome (List CallInfo) := do
  let cs ← searchAll callable ts (List.range nf) ⟨List.replicate (nf + ts.length) ⟨0, 0, 0⟩, 0⟩
  let given ← truncate cs.count cs.results
  if given.length = nf then do
    let us ← unusedLoop nf given (List.range ts.length) ⟨List.replicate ts.length ⟨0, 0, 0⟩, 0⟩
    let extra ← truncate us.count us.results
    return given ++ extra
  else .ub

/-- A function of the tuple with its side effects; `none` is a `void` result (`void_t`, call_by_need.hpp:45-47). -/
abbrev Fn (α β σ : Type) := List α → σ → Outcome (Option (β ⊕ α) × σ)

/-- `safe_forward`, call_by_need.hpp:145-147. -/
def safeForward : Fn α β σ
  | [x], s => .ok (some (.inr x), s)
  | _, _ => .ub

/-- A given function as an element of `new_fs`, call_by_need.hpp:162-165, and `invoke`, 49-63. -/
def given (f : List α → σ → Option β × σ) : Fn α β σ := fun xs s =>
  .ok ((f xs s).1.map .inl, (f xs s).2)

/-- `tuple_size_v<Fs>` for a tuple of `n` elements, type_traits.hpp:326-329: `Fs` is a reference type if the tuple is an lvalue, for which
`T::size()` is not valid, so that the primary template gives 0. -/
def tupleSizeV (lvalue : Bool) (n : Nat) : Nat := if lvalue then 0 else n

/-- `new_fs`, call_by_need.hpp:162-165: the first `tuple_size_v<Fs>` functions, and `safe_forward`. -/
def newFs (lvalue : Bool) (fs : List (List α → σ → Option β × σ)) : List (Fn α β σ) :=
  (fs.take (tupleSizeV lvalue fs.length)).map given ++ [safeForward]

/-- The results in the order of the braced list, call_by_need.hpp:167-175. -/
def runCalls (fs : List (Fn α β σ)) (args : List α) : List CallInfo → σ → Outcome (List (Option (β ⊕ α)) × σ)
  | [], s => .ok ([], s)
  | c :: cs, s => do
    let f ← get fs c.fnIdx
    let b ← block args c.argBase c.argLen
    let r ← f b s
    let rest ← runCalls fs args cs r.2
    return (r.1 :: rest.1, rest.2)

/-- `call_by_need(std::move(fs), args)`, call_by_need.hpp:150-177, the arguments as lvalues. `ty` gives the arguments' types. -/
def callByNeed (callable : Nat → List τ → Bool) (ty : α → τ) (fs : List (List α → σ → Option β × σ)) (args : List α) (s : σ) :
    Outcome (List (β ⊕ α) × σ) := do
  let calls ← computeCallInfo callable fs.length (args.map ty)
  let r ← runCalls (newFs false fs) args calls s
  return (r.1.filterMap id, r.2)

/-- `call_by_need(fs, args)`, call_by_need.hpp:150-177, the functions and the arguments as lvalues: the calls are computed for the functions
(153-160), but `new_fs` (162-165) is made without them.  `ub`: the program does not compile. -/
def callByNeedLvalue (callable : Nat → List τ → Bool) (ty : α → τ) (fs : List (List α → σ → Option β × σ)) (args : List α) (s : σ) :
    Outcome (List (β ⊕ α) × σ) := do
  let calls ← computeCallInfo callable fs.length (args.map ty)
  let r ← runCalls (newFs true fs) args calls s
  return (r.1.filterMap id, r.2)

/-- `call_by_need(std::move(fs), std::move(args))`: when `args` is an rvalue too and the functions take their parameters by value: every call moves the arguments
of its block out of the tuple (`get<Base + Is>(std::forward<Args>(args))...`, call_by_need.hpp:54-61). -/
def runCallsMove (moved : α → α) (fs : List (Fn α β σ)) : List α → List CallInfo → σ → Outcome (List (Option (β ⊕ α)) × σ)
  | _, [], s => .ok ([], s)
  | args, c :: cs, s => do
    let f ← get fs c.fnIdx
    let b ← block args c.argBase c.argLen
    let r ← f b s
    let rest ← runCallsMove moved fs (args.mapIdx fun i x => if usesArg c i then moved x else x) cs r.2
    return (r.1 :: rest.1, rest.2)

/-- `call_by_need` of an rvalue tuple and functions with by-value parameters, call_by_need.hpp:150-177. -/
def callByNeedMove (moved : α → α) (callable : Nat → List τ → Bool) (ty : α → τ) (fs : List (List α → σ → Option β × σ))
    (args : List α) (s : σ) : Outcome (List (β ⊕ α) × σ) := do
  let calls ← computeCallInfo callable fs.length (args.map ty)
  let r ← runCallsMove moved (newFs false fs) args calls s
  return (r.1.filterMap id, r.2)

end Verif.Need
