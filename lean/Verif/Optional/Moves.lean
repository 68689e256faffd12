import Verif.Optional.Model

/-!
# Moves of `optional` (/repo/include/stdx/optional.hpp)

The class declares no copy or move operations (optional.hpp:93-305): the implicit ones copy or move its only member `val` (99),
whether it is the tombstone or not.  A value type is given as in `Verif.Optional.Model`, together with what a move leaves in the object
that is moved from.
-/

namespace Verif.Opt

/-- A value type with its moves: `left v` is what remains in an object of value `v` from which another one has been constructed or
assigned by a move, `self v` what remains after `x = std::move(x)` (the member `val`, optional.hpp:99). -/
structure Mv (T : Type) where
  V : Val T
  left : T → T
  self : T → T

variable {T D : Type}

/-- `optional b{std::move(a)}` and `b = std::move(a)` for another object `b`: the new `b` and what remains of `a` (the member `val`,
optional.hpp:99). -/
def moveFrom (M : Mv T) (a : Optional T) : Optional T × Optional T := (⟨a.val⟩, ⟨M.left a.val⟩)

/-- `T x = *std::move(a)` or `std::move(a).value()`, optional.hpp:145-147, 172-174: the value, and what remains. -/
def takeValue (M : Mv T) (a : Optional T) : T × Optional T := (a.val, ⟨M.left a.val⟩)

/-- `std::move(a).value_or(std::move(d))`, optional.hpp:181-184, where a `T` is made of the default by `conv` and `leftD` is what remains
of that: the value, what remains of the optional and of the default. -/
def valueOrMove (M : Mv T) (conv : D → T) (leftD : D → D) (a : Optional T) (d : D) : T × Optional T × D :=
  if hasValue M.V a then (a.val, ⟨M.left a.val⟩, d) else (conv d, a, leftD d)

/-- `a.value_or(std::move(d))` for an lvalue `a`, optional.hpp:176-180. -/
def valueOrCopy (M : Mv T) (conv : D → T) (leftD : D → D) (a : Optional T) (d : D) : T × Optional T × D :=
  if hasValue M.V a then (a.val, a, d) else (conv d, a, leftD d)

/-- `std::move(a).or_else(f)`, optional.hpp:232-234, where `f` returns the optional `alt`: the result, and what remains. -/
def orElseMove (M : Mv T) (a alt : Optional T) : Optional T × Optional T :=
  if hasValue M.V a then (⟨a.val⟩, ⟨M.left a.val⟩) else (alt, a)

/-- Operations on several optionals named by `ι` (optional.hpp:93-234). -/
inductive MOp (ι T : Type) where
  /-- `a[i] = a[j]` -/
  | copy (i j : ι)
  /-- `a[i] = std::move(a[j])` -/
  | move (i j : ι)
  /-- `std::swap(a[i], a[j])` -/
  | swap (i j : ι)
  /-- `a[i].emplace(v)` -/
  | emplace (i : ι) (v : T)
  /-- `a[i].reset()` -/
  | reset (i : ι)
  /-- `T x = *std::move(a[i])` -/
  | take (i : ι)
  /-- `T x = std::move(a[i]).value_or(d)` -/
  | valueOr (i : ι) (d : T)
  /-- `auto r = std::move(a[i]).or_else(f)` where `f` returns `optional{v}` -/
  | orElse (i : ι) (v : T)
  /-- `a[i].has_value()`, and `*a[i]` if there is one -/
  | query (i : ι)

/-- What an operation tells (optional.hpp:133-234). -/
inductive MOut (T : Type) where
  | none
  | val (v : T)
  | opt (o : Option T)

/-- One object changed. -/
def put {ι A : Type} [DecidableEq ι] (s : ι → A) (i : ι) (a : A) : ι → A := fun j => if j = i then a else s j

/-- What `has_value()` and `value()` of an optional tell, optional.hpp:133-150. -/
def report (V : Val T) (o : Optional T) : Option T := if hasValue V o then some (value o) else Option.none

/-- One operation (optional.hpp:93-234).  `std::swap` makes three moves, through a third object. -/
def MOp.step {ι : Type} [DecidableEq ι] (M : Mv T) (s : ι → Optional T) : MOp ι T → (ι → Optional T) × MOut T
  | .copy i j => (put s i (s j), .none)
  | .move i j =>
    if i = j then (put s i ⟨M.self (s i).val⟩, .none)
    else
      let r := moveFrom M (s j)
      (put (put s i r.1) j r.2, .none)
  | .swap i j =>
    let (t, a) := moveFrom M (s i)
    let s := put s i a
    let s := if i = j then put s i ⟨M.self (s i).val⟩ else
      let r := moveFrom M (s j)
      put (put s i r.1) j r.2
    (put s j (moveFrom M t).1, .none)
  | .emplace i v => (put s i ⟨v⟩, .none)
  | .reset i => (put s i (empty M.V), .none)
  | .take i =>
    let r := takeValue M (s i)
    (put s i r.2, .val r.1)
  | .valueOr i d =>
    let r := valueOrMove M (fun d => d) M.left (s i) d
    (put s i r.2.1, .val r.1)
  | .orElse i v =>
    let r := orElseMove M (s i) (ofValue v)
    (put s i r.2, .opt (report M.V r.1))
  | .query i => (s, .opt (report M.V (s i)))

/-- A history (optional.hpp:93-234). -/
def MOp.run {ι : Type} [DecidableEq ι] (M : Mv T) (s : ι → Optional T) : List (MOp ι T) → (ι → Optional T) × List (MOut T)
  | [] => (s, [])
  | o :: os =>
    let r := o.step M s
    let t := MOp.run M r.1 os
    (t.1, r.2 :: t.2)

end Verif.Opt
