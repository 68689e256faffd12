import Verif.Base

/-! # Environments (env.hpp)

Queries and values are compile-time; a query is its type (`query_t`, env.hpp:13), so keys are elements of a type with
decidable equality; `conv k q` tells whether a query object of type `k` converts implicitly to `q` (`k` itself, a base
class of it, ...).  `none`: the query is not valid for the environment (the constraint `valid_query_over`, env.hpp:23-24). -/

namespace Verif.Env

variable {κ ν : Type}

/-- What an `env<...>` may contain: `ct_prop<Query, Value>` (env.hpp:12-18) or another `env` (anything with a `query`
member will do, env.hpp:20-21). -/
inductive Entry (κ ν : Type) where
  | prop (q : κ) (v : ν)
  | env (es : List (Entry κ ν))

mutual
/-- `valid_query_for<Q, Env>`, env.hpp:20-21: for `ct_prop` the query must convert to the parameter type. -/
def valid (conv : κ → κ → Bool) (k : κ) : Entry κ ν → Bool
  | .prop q _ => conv k q
  | .env es => validOver conv k es

/-- `valid_query_over<Q, Envs...>`, env.hpp:23-24. -/
def validOver (conv : κ → κ → Bool) (k : κ) : List (Entry κ ν) → Bool
  | [] => false
  | e :: es => valid conv k e || validOver conv k es
end

mutual
/-- `e.query(Q{})`: `ct_prop::query`, env.hpp:15-17, or `env::query`, env.hpp:32-40. `Q{}(E{})` is taken to call
`E{}.query(Q{})`, as a query object does. -/
def queryEntry (conv : κ → κ → Bool) (k : κ) : Entry κ ν → Option ν
  | .prop q v => if conv k q then some v else none
  | .env es => queryFirst conv k es

/-- `mp_find_if_q` with `has_query` and `nth_t`, env.hpp:35-38: the first entry for which the query is valid. -/
def queryFirst (conv : κ → κ → Bool) (k : κ) : List (Entry κ ν) → Option ν
  | [] => none
  | e :: es => if valid conv k e then queryEntry conv k e else queryFirst conv k es
end

/-- `query<Env>(q)`, env.hpp:93-95. -/
def query (conv : κ → κ → Bool) (es : List (Entry κ ν)) (k : κ) : Option ν := queryFirst conv k es

/-- `query<Env>(q, d)`, env.hpp:97-104. -/
def queryOr (conv : κ → κ → Bool) (es : List (Entry κ ν)) (k : κ) (d : ν) : ν :=
  match query conv es k with
  | some v => v
  | none => d

/-- `queries_equal<T, U>`, env.hpp:62-63: `T::query_t` exists for `ct_prop` only; otherwise compilation fails. -/
def queriesEqual [DecidableEq κ] : Entry κ ν → Entry κ ν → Outcome Bool
  | .prop q _, .prop r _ => .ok (decide (q = r))
  | _, _ => .ub

/-- Whether an element is `queries_equal` to one of the kept ones, in `mp_unique_if` (env.hpp:76 and 86). -/
def anyEqual [DecidableEq κ] (x : Entry κ ν) : List (Entry κ ν) → Outcome Bool
  | [] => .ok false
  | e :: es => do
    let b ← queriesEqual e x
    let c ← anyEqual x es
    return (b || c)

/-- `mp_unique_if<L, queries_equal>` (Boost.Mp11; env.hpp:76-77 and 86-88): from the left, elements equal to none of the kept ones are kept. -/
def uniqueIf [DecidableEq κ] : List (Entry κ ν) → List (Entry κ ν) → Outcome (List (Entry κ ν))
  | kept, [] => .ok kept
  | kept, x :: xs => do
    let b ← anyEqual x kept
    uniqueIf (if b then kept else kept ++ [x]) xs

/-- A template argument of `make_env_t`/`extend_env_t`, wrapped in `autowrap` (env.hpp:45-60): any value; as a query what
counts is its type (`query_t`, env.hpp:13). -/
structure Arg (κ ν : Type) where
  ty : κ
  val : ν

/-- `nth_v<I, Args...>.value`, env.hpp:68-69; an index outside does not compile. -/
def nthArg (args : List (Arg κ ν)) (i : Nat) : Outcome (Arg κ ν) := arrGet args i

/-- `for_each_pair<...>::type`, env.hpp:65-70, for a sequence of indices. -/
def forEachPair (args : List (Arg κ ν)) : List Nat → Outcome (List (Entry κ ν))
  | [] => .ok []
  | i :: is => do
    let q ← nthArg args (2 * i)
    let v ← nthArg args (2 * i + 1)
    let es ← forEachPair args is
    return .prop q.ty v.val :: es

/-- `extend_env_t<Env, Args...>`, env.hpp:72-83. -/
def extend [DecidableEq κ] (env : List (Entry κ ν)) (args : List (Arg κ ν)) : Outcome (List (Entry κ ν)) := do
  let new ← forEachPair args (List.range (args.length / 2))
  uniqueIf [] (new ++ env)

/-- `append_env_t<Envs...>`, env.hpp:85-88. Without environments `mp_append` (Boost.Mp11) gives an `mp_list`, which is no environment. -/
def append [DecidableEq κ] (envs : List (List (Entry κ ν))) : Outcome (List (Entry κ ν)) :=
  match envs with
  | [] => .ub
  | envs => uniqueIf [] envs.flatten.reverse

/-- `make_env_t<Args...>`, env.hpp:90-91. -/
def make [DecidableEq κ] (args : List (Arg κ ν)) : Outcome (List (Entry κ ν)) := extend [] args

end Verif.Env
