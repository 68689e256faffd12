import Verif.CxVector.Model

/-!
# Model of access to the elements of a `cx_vector` by an index  (/repo/include/stdx/cx_vector.hpp)

`v[i]`, `v.get<I>()` and `get<I>(v)`, when the program runs and in constant expressions. What the compiler rejects is an outcome of its own.
-/

namespace Verif.CxVector

open Verif.Buf

/-- The three expressions: `v[i]` (cx_vector.hpp:103-110), `v.get<I>()` (112-119) and `get<I>(v)` (167-175). -/
inductive Form where
  | bracket
  | member
  | free
  deriving DecidableEq, Repr

/-- What `v` is: an lvalue, a const lvalue or a temporary object (cx_vector.hpp:103-119 and 167-175 have overloads for the first two). -/
inductive Cat where
  | lvalue
  | constant
  | temporary
  deriving DecidableEq, Repr

/-- What is done with the reference: it is read or assigned to (cx_vector.hpp:103-119: `reference`, `const_reference`). -/
inductive Use (α : Type) where
  | read
  | write (x : α)

/-- What comes of it: the program is rejected, it is undefined, or there is a value (the one read, or the one assigned) and the vector is `after`
(cx_vector.hpp:103-119). -/
inductive Res (α : Type) where
  | rejected
  | undefined
  | value (x : α) (after : Buf α)
  deriving DecidableEq, Repr

/-- The functions that are declared `constexpr`: the members (cx_vector.hpp:103, 107, 113 and 117), not `get` at 168 and 173. -/
def Form.isConstexpr : Form → Bool
  | .bracket => true
  | .member => true
  | .free => false

/-- Whether the reference is to a non-const element: overloads without const are chosen for lvalues, and for temporary objects if they are members; a
temporary object does not bind to the parameter of the first `get` (cx_vector.hpp:104, 113 and 168 against 108, 117 and 173). -/
def writable : Form → Cat → Bool
  | _, .lvalue => true
  | _, .constant => false
  | .free, .temporary => false
  | _, .temporary => true

/-- The use of the reference to `storage[i]` (cx_vector.hpp:105, 109, 114 and 118), where assignment to a const element is rejected. -/
def use {α : Type} (b : Buf α) (i : Nat) (w : Bool) : Use α → Res α
  | .read => match index b i with
    | .ok x => .value x b
    | _ => .undefined
  | .write x => if w then match assign b i x with
      | .ok b' => .value x b'
      | _ => .undefined
    else .rejected

/-- An expression, in a constant expression or not. `std::get` rejects an index that is not less than `N`; in a constant expression what is undefined is
rejected, and so are calls of functions that are not `constexpr` (cx_vector.hpp:103-119 and 167-175). -/
def eval {α : Type} (isConstant : Bool) (f : Form) (c : Cat) (b : Buf α) (i : Nat) (u : Use α) : Res α :=
  if isConstant && !f.isConstexpr then .rejected
  else if f ≠ .bracket ∧ b.storage.length ≤ i then .rejected
  else match use b i (writable f c) u with
    | .undefined => if isConstant then .rejected else .undefined
    | r => r

end Verif.CxVector
