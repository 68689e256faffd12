import Verif.CxVector.Model
import Verif.CxSet.Model
import Verif.CxMap.Model

/-!
# Loops over the fixed-capacity containers whose bodies change the container

The iterators of `cx_vector`, `cx_set`, `cx_map` and `cx_multimap` are pointers into the array (cx_vector.hpp:27-28,
cx_set.hpp:22-23, cx_map.hpp:31-32, cx_multimap.hpp:25-26): an iterator is here the index of an element of the array.
`end()` is `begin() + current_size` at the time it is called (cx_vector.hpp:50-52, cx_set.hpp:42-44, cx_map.hpp:56-58), and
all `N` elements of the array exist all the time.  The loops themselves are the user's; what they do is fixed by the language.
Each loop also returns the elements that its body was given, in order.  The body may have a state of its own, `σ`.  An element
is given to the body by value; that operations given a reference to it do the same is C115.
-/

namespace Verif.Loops

open Verif.Buf

variable {ε σ : Type}

/-- The range-based `for` from element `i`, with `rem` elements left (cx_set.hpp:31-44, cx_vector.hpp:39-52, cx_map.hpp:45-58). -/
def rangeLoop (body : σ → Buf ε → ε → Outcome (σ × Buf ε)) (i : Nat) :
    Nat → σ → Buf ε → Outcome (List ε × σ × Buf ε)
  | 0, s, b => .ok ([], s, b)
  | rem + 1, s, b => do
    let x ← arrGet b.storage i
    let (s1, b1) ← body s b x
    let (tr, r) ← rangeLoop body (i + 1) rem s1 b1
    return (x :: tr, r)

/-- `for (auto const &x : c) { body }`: `begin()` and `end()` are called once, before the loop (cx_set.hpp:31-44,
cx_vector.hpp:39-52, cx_map.hpp:45-58). -/
def rangeFor (body : σ → Buf ε → ε → Outcome (σ × Buf ε)) (s : σ) (b : Buf ε) : Outcome (List ε × σ × Buf ε) :=
  rangeLoop body 0 b.size s b

/-- The loop of `iterFor` from element `i`, where `rem` elements of the array are left.  A pointer behind the array may be
compared but not dereferenced (cx_set.hpp:31-44, cx_vector.hpp:39-52, cx_map.hpp:45-58). -/
def iterLoop (body : σ → Buf ε → ε → Outcome (σ × Buf ε)) (i : Nat) :
    Nat → σ → Buf ε → Outcome (List ε × σ × Buf ε)
  | 0, s, b => if i = b.size then .ok ([], s, b) else .ub
  | rem + 1, s, b =>
    if i = b.size then .ok ([], s, b) else do
    let x ← arrGet b.storage i
    let (s1, b1) ← body s b x
    let (tr, r) ← iterLoop body (i + 1) rem s1 b1
    return (x :: tr, r)

/-- `for (auto it = c.begin(); it != c.end(); ++it) { body(*it) }`: `end()` is called before every turn (cx_set.hpp:31-44,
cx_vector.hpp:39-52, cx_map.hpp:45-58). -/
def iterFor (body : σ → Buf ε → ε → Outcome (σ × Buf ε)) (s : σ) (b : Buf ε) : Outcome (List ε × σ × Buf ε) :=
  iterLoop body 0 b.storage.length s b

/-- The loop of `indexFor` from index `i`, where `rem` elements of the array are left (cx_vector.hpp:98-106). -/
def indexLoop (body : σ → Buf ε → ε → Outcome (σ × Buf ε)) (i : Nat) :
    Nat → σ → Buf ε → Outcome (List ε × σ × Buf ε)
  | 0, s, b => if i < b.size then .ub else .ok ([], s, b)
  | rem + 1, s, b =>
    if i < b.size then do
      let x ← CxVector.index b i
      let (s1, b1) ← body s b x
      let (tr, r) ← indexLoop body (i + 1) rem s1 b1
      return (x :: tr, r)
    else .ok ([], s, b)

/-- `for (std::size_t i = 0; i < v.size(); ++i) { body(v[i]) }` (cx_vector.hpp:98-106). -/
def indexFor (body : σ → Buf ε → ε → Outcome (σ × Buf ε)) (s : σ) (b : Buf ε) : Outcome (List ε × σ × Buf ε) :=
  indexLoop body 0 b.storage.length s b

/-- The loop of `purge`, with the iterator at element `i`.  The number of turns is bounded by `fuel` here; a loop that needs
more counts as undefined (cx_set.hpp:31-44 and 81-89, cx_map.hpp:45-58 and 127-135). -/
def purgeLoop (p : ε → Bool) (erase : Buf ε → ε → Outcome (Buf ε × Nat)) :
    Nat → Nat → Buf ε → Outcome (List ε × Buf ε)
  | 0, i, b => if i = b.size then .ok ([], b) else .ub
  | fuel + 1, i, b =>
    if i = b.size then .ok ([], b) else do
    let x ← arrGet b.storage i
    if p x then
      let (b1, _) ← erase b x
      let (tr, r) ← purgeLoop p erase fuel i b1
      return (x :: tr, r)
    else
      let (tr, r) ← purgeLoop p erase fuel (i + 1) b
      return (x :: tr, r)

/-- `for (auto it = c.begin(); it != c.end();) { if (p(*it)) c.erase(*it); else ++it; }`, with `it->key` for a map
(cx_set.hpp:31-44 and 81-89, cx_map.hpp:45-58 and 127-135). -/
def purge (p : ε → Bool) (erase : Buf ε → ε → Outcome (Buf ε × Nat)) (b : Buf ε) : Outcome (List ε × Buf ε) :=
  purgeLoop p erase b.size 0 b

/-- The loop of `drain`, of at most `fuel` turns (cx_set.hpp:97-105, cx_map.hpp:74-82, cx_vector.hpp:124-140). -/
def drainLoop (body : σ → ε → Outcome σ) : Nat → σ → Buf ε → Outcome (List ε × σ × Buf ε)
  | 0, s, b => if b.size = 0 then .ok ([], s, b) else .ub
  | fuel + 1, s, b =>
    if b.size = 0 then .ok ([], s, b) else do
    let (b1, x) ← popBack b
    let s1 ← body s x
    let (tr, r) ← drainLoop body fuel s1 b1
    return (x :: tr, r)

/-- `while (not c.empty()) { body(c.pop_back()); }` (cx_set.hpp:97-105, cx_map.hpp:74-82, cx_vector.hpp:124-140). -/
def drain (body : σ → ε → Outcome σ) (s : σ) (b : Buf ε) : Outcome (List ε × σ × Buf ε) :=
  drainLoop body b.size s b

variable {α κ ν : Type} [BEq α] [BEq κ]

/-- `if (p(x)) { s.erase(x); }` (cx_set.hpp:81-89). -/
def setEraseBody (p : α → Bool) (_ : Unit) (b : Buf α) (x : α) : Outcome (Unit × Buf α) := do
  if p x then
    let (b', _) ← CxSet.erase b x
    return ((), b')
  else return ((), b)

/-- `if (p(k, v)) { m.erase(k); }` (cx_map.hpp:127-135). -/
def mapEraseBody (p : κ × ν → Bool) (_ : Unit) (b : Buf (κ × ν)) (x : κ × ν) : Outcome (Unit × Buf (κ × ν)) := do
  if p x then
    let (b', _) ← CxMap.erase b x.1
    return ((), b')
  else return ((), b)

/-- `for (auto const &y : g(x)) { s.insert(y); }` (cx_set.hpp:66-72). -/
def setInsertBody (g : α → List α) (_ : Unit) (b : Buf α) (x : α) : Outcome (Unit × Buf α) := do
  let b' ← CxSet.merge b (g x)
  return ((), b')

end Verif.Loops
