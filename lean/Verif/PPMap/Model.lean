/-!
# Model of `STDX_MAP` (pp_map.hpp) and of the preprocessor it runs on

The macros are given as data. They are run by a model of macro replacement ([cpp.replace] in the C++ standard, in the way compilers
implement it): arguments are replaced first, on their own; the replacement list is then scanned together with the rest of the input; the
name of a macro is not replaced within its own replacement, and stays so for ever. Not modelled: `#` and `##` (only `STDX_MAP_INC`,
pp_map.hpp:25, which nothing uses, has one), directives, white space.
-/

namespace Verif.PPMap

/-- The identifiers of pp_map.hpp:5-37, and all the others. -/
inductive Name where
  | eval0 | eval1 | eval2 | eval3 | eval4 | eval5 | eval
  | mapEnd | mapOut | empty | defer | getEnd2 | getEnd1 | getEnd | next0 | next1 | next
  | mapA | mapB | drop0 | drop1 | map
  | user (n : Nat)
  deriving DecidableEq

/-- Preprocessing tokens: identifiers, with a mark if they are no longer available for replacement; parentheses and commas; others. -/
inductive Tok where
  | id (n : Name) (painted : Bool)
  | lp
  | rp
  | comma
  | other (k : Nat)
  deriving DecidableEq

/-- The elements of a replacement list: tokens, parameters, `__VA_ARGS__`. `__VA_OPT__` is only used around a whole replacement list
(pp_map.hpp:35-37) and is a property of the macro. -/
inductive Body where
  | tok (t : Tok)
  | param (i : Nat)
  | va
  deriving DecidableEq

/-- A macro: without parameters, or with a number of named ones, `...` or not, and `__VA_OPT__` around all of the replacement list or
not. -/
inductive Macro where
  | object (body : List Body)
  | function (named : Nat) (variadic : Bool) (vaOpt : Bool) (body : List Body)

/-- The input: tokens, and where the replacement of a macro ends. -/
inductive Item where
  | tok (t : Tok)
  | done (n : Name)
  deriving DecidableEq

/-- The macros whose replacement has not ended. -/
def open_ : List Item → List Name
  | [] => []
  | .tok _ :: r => open_ r
  | .done n :: r => n :: open_ r

/-- Past the ends of replacements. -/
def skip : List Item → List Item
  | .done _ :: r => skip r
  | r => r

/-- The arguments up to the closing parenthesis, split at the commas outside of inner parentheses, and the rest of the input. -/
def collect : Nat → List Item → List Tok → Option (List (List Tok) × List Item)
  | _, [], _ => none
  | d, .done _ :: r, acc => collect d r acc
  | d, .tok .lp :: r, acc => collect (d + 1) r (acc ++ [.lp])
  | 0, .tok .rp :: r, acc => some ([acc], r)
  | d + 1, .tok .rp :: r, acc => collect d r (acc ++ [.rp])
  | 0, .tok .comma :: r, acc => (collect 0 r []).map fun p => (acc :: p.1, p.2)
  | d + 1, .tok .comma :: r, acc => collect (d + 1) r (acc ++ [.comma])
  | d, .tok t :: r, acc => collect d r (acc ++ [t])

/-- Arguments with the commas between them. -/
def join : List (List Tok) → List Tok
  | [] => []
  | [a] => a
  | a :: b :: as => a ++ .comma :: join (b :: as)

/-- The arguments for the named parameters, and for `...`, which takes all the others with the commas between them. -/
def bind (named : Nat) (variadic : Bool) (args : List (List Tok)) : Option (List (List Tok) × List Tok) :=
  if variadic then
    if named ≤ args.length then some (args.take named, join (args.drop named)) else none
  else if args.length = named then some (args, [])
  else if named = 0 ∧ args = [[]] then some ([], [])
  else none

/-- The replacement list with the arguments put in. -/
def subst (args : List (List Tok)) (va : List Tok) : List Body → List Tok
  | [] => []
  | .tok t :: b => t :: subst args va b
  | .param i :: b => (args[i]?).getD [] ++ subst args va b
  | .va :: b => va ++ subst args va b

/-- All arguments replaced. -/
def allSome {α β : Type} (f : α → Option β) : List α → Option (List β)
  | [] => some []
  | a :: as => match f a with
    | none => none
    | some b => match allSome f as with
      | none => none
      | some bs => some (b :: bs)

/-- Macro replacement of an input, in the replacement of the macros `outer`; `none` is an error, or too little fuel. -/
def expand (M : Name → Option Macro) : Nat → List Name → List Item → Option (List Tok)
  | 0, _, _ => none
  | _ + 1, _, [] => some []
  | fuel + 1, outer, .done _ :: r => expand M fuel outer r
  | fuel + 1, outer, .tok (.id n painted) :: r =>
    if painted then (expand M fuel outer r).map (.id n true :: ·)
    else match M n with
    | none => (expand M fuel outer r).map (.id n false :: ·)
    | some mac =>
      if n ∈ outer ∨ n ∈ open_ r then (expand M fuel outer r).map (.id n true :: ·)
      else match mac with
      | .object body => expand M fuel outer ((subst [] [] body).map .tok ++ .done n :: r)
      | .function named variadic vaOpt body =>
        match skip r with
        | .tok .lp :: r' =>
          match collect 0 r' [] with
          | none => none
          | some (args, rest) =>
            match bind named variadic args with
            | none => none
            | some (as, va) =>
              match allSome (fun a => expand M fuel (open_ rest ++ outer) (a.map .tok)) as,
                expand M fuel (open_ rest ++ outer) (va.map .tok) with
              | some as', some va' =>
                expand M fuel outer ((if vaOpt && va'.isEmpty then [] else subst as' va' body).map .tok ++ .done n :: rest)
              | _, _ => none
        | _ => (expand M fuel outer r).map (.id n false :: ·)
  | fuel + 1, outer, .tok t :: r => (expand M fuel outer r).map (t :: ·)

/-- An identifier in a replacement list. -/
def i (n : Name) : Body := .tok (.id n false)
/-- `(` -/
def l : Body := .tok .lp
/-- `)` -/
def r : Body := .tok .rp
/-- `,` -/
def k : Body := .tok .comma
/-- `0` -/
def zero : Body := .tok (.other 0)

/-- `()()()` -/
def sentinel : List Body := [l, r, l, r, l, r]

/-- `STDX_EVALn(...)` with `e` three times, pp_map.hpp:6-10. -/
def thrice (e : Name) : Macro := .function 0 true false [i e, l, i e, l, i e, l, .va, r, r, r]

/-- The macros, pp_map.hpp:5-37; and the program's own. -/
def table (user : Nat → Option Macro) : Name → Option Macro
  | .eval0 => some (.function 0 true false [.va])
  | .eval1 => some (thrice .eval0)
  | .eval2 => some (thrice .eval1)
  | .eval3 => some (thrice .eval2)
  | .eval4 => some (thrice .eval3)
  | .eval5 => some (thrice .eval4)
  | .eval => some (.function 0 true false [i .eval5, l, .va, r])
  | .mapEnd => some (.function 0 true false [])
  | .mapOut => some (.object [])
  | .empty => some (.function 0 false false [])
  | .defer => some (.function 1 false false [.param 0, i .empty, l, r])
  | .getEnd2 => some (.function 0 false false [zero, k, i .mapEnd])
  | .getEnd1 => some (.function 0 true false [i .getEnd2])
  | .getEnd => some (.function 0 true false [i .getEnd1])
  | .next0 => some (.function 2 true false [.param 1, i .mapOut])
  | .next1 => some (.function 2 false false [i .defer, l, i .next0, r, l, .param 0, k, .param 1, k, zero, r])
  | .next => some (.function 2 false false [i .next1, l, i .getEnd, .param 0, k, .param 1, r])
  | .mapA => some (.function 3 true false
      [k, .param 0, l, .param 1, r, i .defer, l, i .next, l, .param 2, k, i .mapB, r, r, l, .param 0, k, .param 2, k, .va, r])
  | .mapB => some (.function 3 true false
      [k, .param 0, l, .param 1, r, i .defer, l, i .next, l, .param 2, k, i .mapA, r, r, l, .param 0, k, .param 2, k, .va, r])
  | .drop0 => some (.function 1 true false [.va])
  | .drop1 => some (.function 0 true false [i .drop0, l, .va, r])
  | .map => some (.function 1 true true
      ([i .drop1, l, zero, i .eval, l, i .mapA, l, .param 0, k, .va, k] ++ sentinel ++ [k] ++ sentinel ++ [k] ++ sentinel ++
        [k, zero, r, r, r]))
  | .user n => user n

end Verif.PPMap
