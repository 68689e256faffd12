import Verif.Unwind.Model
import Verif.CxSet.Model
import Verif.CxMap.Model
import Verif.CxMultimap.Model
import Verif.Optional.Model

/-!
# Comparisons that throw

The models of the containers, of tuples and of `optional` take the comparisons of their elements to return.  Here each comparison may
throw instead, as it likes, and may have effects on a world; it does not touch the container it is called from.  Copies and moves do
not throw here (for these see `Verif.Throw`).
-/

namespace Verif.Judge

open Verif.Unwind Verif.Buf

variable {E W R B α κ ν T U : Type}

/-- The container that is not involved is kept beside the world of the comparisons: nothing is changed while the loops of cx_set.hpp:58-62
and cx_map.hpp:86-90 compare. -/
def beside (b : B) : Res E W R → Res E (B × W) R
  | .ok w r => .ok (b, w) r
  | .threw w e => .threw (b, w) e
  | .ub => .ub
  | .terminated => .terminated

/-- `for (auto &x : *this) { if (p(x)) { … return } }` with a test that may throw, from index `i` with `rem` elements left
(cx_set.hpp:58-62 and 82-86, cx_map.hpp:86-90, 104-108, 114-119 and 128-133). -/
def scan (p : Fn E W α Bool) (st : List α) (i : Nat) : Nat → W → Res E W (Option Nat)
  | 0, w => .ok w none
  | rem + 1, w =>
    need (arrGet st i) fun x => (call p x w).andThen fun w c => if c then .ok w (some i) else scan p st (i + 1) rem w

/-- The whole loop (cx_set.hpp:58-62, cx_map.hpp:86-90). -/
def find (p : Fn E W α Bool) (s : Buf α × W) : Res E (Buf α × W) (Option Nat) := beside s.1 (scan p s.1.storage 0 s.1.size s.2)

/-- `x = storage[--current_size]; return 1` for the element found, cx_set.hpp:82-88, cx_map.hpp:128-134. -/
def eraseAt (s : Buf α × W) : Option Nat → Res E (Buf α × W) Nat
  | some i =>
    let n := szDec s.1.size
    need (arrGet s.1.storage n) fun x => need (arrSet s.1.storage i x) fun st => .ok (⟨st, n⟩, s.2) 1
  | none => .ok s 0

/-! ## cx_set -/

/-- `contains`, cx_set.hpp:57-64: `k == key` for the elements in order. -/
def setContains (eq : Fn E W (α × α) Bool) (k : α) (s : Buf α × W) : Res E (Buf α × W) Bool :=
  (find (fun x => eq (x, k)) s).andThen fun s r => .ok s r.isSome

/-- `insert`, cx_set.hpp:66-79. -/
def setInsert (eq : Fn E W (α × α) Bool) (k : α) (s : Buf α × W) : Res E (Buf α × W) Bool :=
  (setContains eq k s).andThen fun s c => if c then .ok s false else need (append s.1 k) fun b => .ok (b, s.2) true

/-- `erase`, cx_set.hpp:81-89. -/
def setErase (eq : Fn E W (α × α) Bool) (k : α) (s : Buf α × W) : Res E (Buf α × W) Nat :=
  (find (fun x => eq (x, k)) s).andThen eraseAt

/-- `merge`, cx_set.hpp:91-95. -/
def setMerge (eq : Fn E W (α × α) Bool) : List α → Buf α × W → Res E (Buf α × W) Unit
  | [], s => .ok s ()
  | x :: xs, s => (setInsert eq x s).andThen fun s _ => setMerge eq xs s

/-- One operation (cx_set.hpp:31-105). -/
def setStep (eq : Fn E W (α × α) Bool) (o : CxSet.Op α) (s : Buf α × W) : Res E (Buf α × W) (CxSet.Out α) :=
  match o with
  | .insert k => (setInsert eq k s).andThen fun s r => .ok s (.bool r)
  | .erase k => (setErase eq k s).andThen fun s r => .ok s (.nat r)
  | .merge xs => (setMerge eq xs s).andThen fun s _ => .ok s .unit
  | .popBack => need (Buf.popBack s.1) fun r => .ok (r.1, s.2) (.val r.2)
  | .clear => .ok (⟨s.1.storage, 0⟩, s.2) .unit
  | .contains k => (setContains eq k s).andThen fun s r => .ok s (.bool r)
  | .size => .ok s (.nat s.1.size)
  | .empty => .ok s (.bool (s.1.size == 0))
  | .iterate => need (elems s.1) fun l => .ok s (.list l)

/-- A history whose exceptions are caught by the caller, operation by operation; `none`: thrown (cx_set.hpp:31-105). -/
def history {O Q : Type} (step : O → B × W → Res E (B × W) Q) : List O → B × W → Res E (B × W) (List (Option Q))
  | [], s => .ok s []
  | o :: os, s =>
    match step o s with
    | .ok s r => (history step os s).andThen fun s rs => .ok s (some r :: rs)
    | .threw s _ => (history step os s).andThen fun s rs => .ok s (none :: rs)
    | .ub => .ub
    | .terminated => .terminated

/-! ## cx_map -/

/-- The loops of cx_map.hpp:86-90, 104-108, 114-119, 128-133. -/
def mapFind (eq : Fn E W (κ × κ) Bool) (k : κ) (s : Buf (κ × ν) × W) : Res E (Buf (κ × ν) × W) (Option Nat) :=
  find (fun e => eq (e.1, k)) s

/-- `contains`, cx_map.hpp:103-110. -/
def mapContains (eq : Fn E W (κ × κ) Bool) (k : κ) (s : Buf (κ × ν) × W) : Res E (Buf (κ × ν) × W) Bool :=
  (mapFind eq k s).andThen fun s r => .ok s r.isSome

/-- `get`, cx_map.hpp:84-101: the place of the value; `unreachable()` if there is none. -/
def mapPlace (eq : Fn E W (κ × κ) Bool) (k : κ) (s : Buf (κ × ν) × W) : Res E (Buf (κ × ν) × W) Nat :=
  (mapFind eq k s).andThen fun s r => match r with
    | some i => .ok s i
    | none => .ub

/-- Reading the value at a place, through the reference of cx_map.hpp:84-101. -/
def mapRead (s : Buf (κ × ν) × W) (i : Nat) : Res E (Buf (κ × ν) × W) ν := need (arrGet s.1.storage i) fun e => .ok s e.2

/-- Assigning it, as at cx_map.hpp:116. -/
def mapWrite (s : Buf (κ × ν) × W) (i : Nat) (v : ν) : Res E (Buf (κ × ν) × W) Unit :=
  need (arrGet s.1.storage i) fun e => need (arrSet s.1.storage i (e.1, v)) fun st => .ok (⟨st, s.1.size⟩, s.2) ()

/-- `insert_or_assign` and `put`, cx_map.hpp:112-125. -/
def mapPut (eq : Fn E W (κ × κ) Bool) (k : κ) (v : ν) (s : Buf (κ × ν) × W) : Res E (Buf (κ × ν) × W) Bool :=
  (mapFind eq k s).andThen fun s r => match r with
    | some i => (mapWrite s i v).andThen fun s _ => .ok s false
    | none => need (append s.1 (k, v)) fun b => .ok (b, s.2) true

/-- `erase`, cx_map.hpp:127-135. -/
def mapErase (eq : Fn E W (κ × κ) Bool) (k : κ) (s : Buf (κ × ν) × W) : Res E (Buf (κ × ν) × W) Nat :=
  (mapFind eq k s).andThen eraseAt

/-- One operation (cx_map.hpp:45-135). -/
def mapStep (N : Nat) (eq : Fn E W (κ × κ) Bool) (o : CxMap.Op κ ν) (s : Buf (κ × ν) × W) : Res E (Buf (κ × ν) × W) (CxMap.Out κ ν) :=
  match o with
  | .put k v => (mapPut eq k v s).andThen fun s r => .ok s (.bool r)
  | .erase k => (mapErase eq k s).andThen fun s r => .ok s (.nat r)
  | .popBack => need (Buf.popBack s.1) fun r => .ok (r.1, s.2) (.pair r.2.1 r.2.2)
  | .clear => .ok (⟨s.1.storage, 0⟩, s.2) .unit
  | .contains k => (mapContains eq k s).andThen fun s r => .ok s (.bool r)
  | .get k => (mapPlace eq k s).andThen fun s i => (mapRead s i).andThen fun s v => .ok s (.val v)
  | .assignGet k v => (mapPlace eq k s).andThen fun s i => (mapWrite s i v).andThen fun s _ => .ok s .unit
  | .size => .ok s (.nat s.1.size)
  | .empty => .ok s (.bool (s.1.size == 0))
  | .full => .ok s (.bool (s.1.size == N))
  | .iterate => need (elems s.1) fun l => .ok s (.list l)

/-! ## cx_multimap -/

open CxMultimap (MM Cfg)

/-- A call on the set at a place, through the reference `get` gives (cx_multimap.hpp:56, 75-76, 85-92): what it has changed when it throws stays
changed. -/
def onPlace (i : Nat) (f : Buf ν × W → Res E (Buf ν × W) R) (s : MM κ ν × W) : Res E (MM κ ν × W) R :=
  need (arrGet s.1.storage i) fun e =>
    match f (e.2, s.2) with
    | .ok (t, w) r => need (arrSet s.1.storage i (e.1, t)) fun st => .ok (⟨st, s.1.size⟩, w) r
    | .threw (t, w) x => need (arrSet s.1.storage i (e.1, t)) fun st => .threw (⟨st, s.1.size⟩, w) x
    | .ub => .ub
    | .terminated => .terminated

/-- `insert(k, v)`, cx_multimap.hpp:54-60. -/
def mmInsert (c : Cfg ν) (ke : Fn E W (κ × κ) Bool) (ve : Fn E W (ν × ν) Bool) (k : κ) (v : ν) (s : MM κ ν × W) :
    Res E (MM κ ν × W) Unit :=
  (mapContains ke k s).andThen fun s b =>
    if b then
      (mapPlace ke k s).andThen fun s i => (onPlace i (setInsert ve v) s).andThen fun s _ => .ok s ()
    else match ofList c.ValueN c.d [v] with
      | some t => (mapPut ke k t s).andThen fun s _ => .ok s ()
      | none => .ub

/-- `insert(k)`, cx_multimap.hpp:61-65. -/
def mmInsertKey (c : Cfg ν) (ke : Fn E W (κ × κ) Bool) (k : κ) (s : MM κ ν × W) : Res E (MM κ ν × W) Unit :=
  (mapContains ke k s).andThen fun s b =>
    if b then .ok s () else (mapPut ke k (init c.ValueN c.d) s).andThen fun s _ => .ok s ()

/-- `erase(k, v)`, cx_multimap.hpp:73-83: three loops over the keys. -/
def mmErase (ke : Fn E W (κ × κ) Bool) (ve : Fn E W (ν × ν) Bool) (k : κ) (v : ν) (s : MM κ ν × W) : Res E (MM κ ν × W) Nat :=
  (mapContains ke k s).andThen fun s b =>
    if b then
      (mapPlace ke k s).andThen fun s i =>
      (onPlace i (setErase ve v) s).andThen fun s r =>
      (mapRead s i).andThen fun s t =>
        if t.size = 0 then (mapErase ke k s).andThen fun s _ => .ok s r else .ok s r
    else .ok s 0

/-- `contains(k, v)`, cx_multimap.hpp:101-104. -/
def mmContains (ke : Fn E W (κ × κ) Bool) (ve : Fn E W (ν × ν) Bool) (k : κ) (v : ν) (s : MM κ ν × W) : Res E (MM κ ν × W) Bool :=
  (mapContains ke k s).andThen fun s b =>
    if b then (mapPlace ke k s).andThen fun s i => onPlace i (setContains ve v) s else .ok s false

/-- One operation (cx_multimap.hpp:28-106). -/
def mmStep (c : Cfg ν) (ke : Fn E W (κ × κ) Bool) (ve : Fn E W (ν × ν) Bool) (o : CxMultimap.Op κ ν) (s : MM κ ν × W) :
    Res E (MM κ ν × W) (CxMultimap.Out κ ν) :=
  match o with
  | .insert k v => (mmInsert c ke ve k v s).andThen fun s _ => .ok s .unit
  | .insertKey k => (mmInsertKey c ke k s).andThen fun s _ => .ok s .unit
  | .eraseKey k => (mapErase ke k s).andThen fun s r => .ok s (.nat r)
  | .erase k v => (mmErase ke ve k v s).andThen fun s r => .ok s (.nat r)
  | .clear => .ok (⟨s.1.storage, 0⟩, s.2) .unit
  | .containsKey k => (mapContains ke k s).andThen fun s r => .ok s (.bool r)
  | .contains k v => (mmContains ke ve k v s).andThen fun s r => .ok s (.bool r)
  | .get k => (mapPlace ke k s).andThen fun s i => (mapRead s i).andThen fun s t => need (elems t) fun l => .ok s (.set l)
  | .onSet k o => (mapPlace ke k s).andThen fun s i => (onPlace i (setStep ve o) s).andThen fun s r => .ok s (.fromSet r)
  | .size => .ok s (.nat s.1.size)
  | .empty => .ok s (.bool (s.1.size == 0))
  | .keys => need (elems s.1) fun l => .ok s (.keys (l.map Prod.fst))

/-! ## Comparisons of vectors and tuples -/

/-- The loop of `operator==`, cx_vector.hpp:155-159, with `rem` elements left from `i`. -/
def vecEqLoop (ne : Fn E W (α × α) Bool) (s t : List α) (i : Nat) : Nat → W → Res E W Bool
  | 0, w => .ok w true
  | rem + 1, w =>
    need (arrGet s i) fun x => need (arrGet t i) fun y =>
      (call ne (x, y) w).andThen fun w d => if d then .ok w false else vecEqLoop ne s t (i + 1) rem w

/-- `operator==`, cx_vector.hpp:149-161. -/
def vecEq (ne : Fn E W (α × α) Bool) (a b : Buf α) (w : W) : Res E W Bool :=
  if a.size ≠ b.size then .ok w false else vecEqLoop ne a.storage b.storage 0 a.size w

/-- `(... and (lhs[index<Is>] == rhs[index<Is>]))`, tuple.hpp:383, 388, a left fold of short-circuiting operators; for each index
its own comparison.  In constant evaluation elements are copied first (379), which does not matter here. -/
def tupleEq (eqs : List (W → W × Except E Bool)) (w : W) : Res E W Bool :=
  match eqs with
  | [] => .ok w true
  | e :: es => shortFold false (fun w => call (fun _ => e) () w) (es.map fun e w => call (fun _ => e) () w) w

/-- `((args == rhs) || ...)`, tuple.hpp:530: a right fold. -/
def oneOfEq (eqs : List (W → W × Except E Bool)) (w : W) : Res E W Bool :=
  match eqs with
  | [] => .ok w false
  | [e] => call (fun _ => e) () w
  | e :: es => (call (fun _ => e) () w).andThen fun w b => if b then .ok w true else oneOfEq es w

/-- `(compare_at<Is>() or ...)`, tuple.hpp:406-411: `result` is assigned each time, and the fold stops at the first that is not 0. -/
def compareRest (cmps : List (W → W × Except E Ordering)) (result : Ordering) (w : W) : Res E W Ordering :=
  match cmps with
  | [] => .ok w result
  | c :: cs => (call (fun _ => c) () w).andThen fun w r => if r ≠ .eq then .ok w r else compareRest cs r w

/-- `operator<=>`, tuple.hpp:395-415: the first elements are compared at 405 and again by the fold. -/
def tupleCompare (cmps : List (W → W × Except E Ordering)) (w : W) : Res E W Ordering :=
  match cmps with
  | [] => .ok w .eq
  | c :: cs => (call (fun _ => c) () w).andThen fun w r => compareRest (c :: cs) r w

/-! ## optional -/

/-- A function that is `noexcept`: what it throws ends the program, as for optional.hpp:133-136. -/
def noexcept : Res E W R → Res E W R
  | .threw _ _ => .terminated
  | r => r

/-- The comparisons and the tombstone of a value type, optional.hpp:93-99. -/
structure OVal (E W T : Type) where
  eq : Fn E W (T × T) Bool
  lt : Fn E W (T × T) Bool
  ts : T

/-- `has_value()` and `operator bool`, optional.hpp:133-136, both `noexcept`. -/
def hasValue (V : OVal E W T) (o : T) (w : W) : Res E W Bool :=
  noexcept ((call V.eq (o, V.ts) w).andThen fun w b => .ok w (!b))

/-- `value_or(d)`, optional.hpp:176-184. -/
def valueOr (V : OVal E W T) (o d : T) (w : W) : Res E W T :=
  (hasValue V o w).andThen fun w b => .ok w (if b then o else d)

/-- `transform(f)`, optional.hpp:198-227, with a function that may throw and may change the contained value: the world holds the
optional. -/
def optTransform (V : OVal E W T) (ts : U) (f : Fn E (T × W) Unit U) (s : T × W) : Res E (T × W) U :=
  (beside s.1 (hasValue V s.1 s.2)).andThen fun s b => if b then call f () s else .ok s ts

/-- `and_then(f)`, optional.hpp:236-259: as values it is the same, the function giving an optional. -/
def optAndThen (V : OVal E W T) (ts : U) (f : Fn E (T × W) Unit U) (s : T × W) : Res E (T × W) U :=
  (beside s.1 (hasValue V s.1 s.2)).andThen fun s b => if b then call f () s else .ok s ts

/-- `or_else(f)`, optional.hpp:229-234. -/
def optOrElse (V : OVal E W T) (f : Fn E (T × W) Unit T) (s : T × W) : Res E (T × W) T :=
  (beside s.1 (hasValue V s.1 s.2)).andThen fun s b => if b then .ok s s.1 else call f () s

/-- `operator==`, optional.hpp:262-266. -/
def optEq (V : OVal E W T) (a b : T) (w : W) : Res E W Bool := call V.eq (a, b) w

/-- `operator<`, optional.hpp:268-273: `has_value()` of the first is asked again in the second branch, and so may that of the second be. -/
def optLt (V : OVal E W T) (a b : T) (w : W) : Res E W Bool :=
  (hasValue V a w).andThen fun w ha =>
  (if ha then hasValue V b w else .ok w false).andThen fun w both =>
    if both then call V.lt (a, b) w
    else (hasValue V a w).andThen fun w ha => if !ha then hasValue V b w else .ok w false

end Verif.Judge
