import Verif.CxVector.Model
import Verif.Span.Props

/-!
# Programs that view vectors through spans (/repo/include/stdx/cx_vector.hpp, span.hpp)

Any number of `cx_vector<T, N>` variables and of spans.  A span holds a pointer into the storage of the vector it was taken
of; the vector is named beside it here.  The functions are those of Verif/CxVector and Verif/Span.
-/

namespace Verif.Views

open Verif.Buf

variable {ι κ α : Type}

/-- Function update. -/
def upd {β γ : Type} [DecidableEq β] (f : β → γ) (b : β) (c : γ) : β → γ := fun x => if x = b then c else f x

/-- The variables of the program: vectors (cx_vector.hpp:16-17) and spans (span.hpp:60-65) with the vector whose storage they
point into. -/
structure St (ι κ α : Type) where
  vecs : ι → Buf α
  spans : κ → Option (ι × Span.Span)

/-- A statement of the program. -/
inductive Act (ι κ α : Type) where
  | vec (i : ι) (o : CxVector.Op α)
  | copy (d s : ι)
  | view (k : κ) (i : ι) (ext : Nat)
  | conv (k j : κ) (ext : Nat)
  | sub (k j : κ) (c : Span.Sub)
  | read (k : κ) (n : Nat)
  | write (k : κ) (n : Nat) (x : α)
  | iterate (k : κ)
  | count (k : κ)

/-- Use of a span (span.hpp:60-65) with the storage it points into; a span that was not initialised cannot be used. -/
def withSpan (st : St ι κ α) (k : κ) {β : Type} (f : ι → Span.Span → Outcome β) : Outcome β :=
  match st.spans k with
  | some (i, s) => f i s
  | none => .ub

/-- One statement. `copy`: the defaulted assignment of vectors (cx_vector.hpp:15-17), which copies the members; `view`: `span<T, ext>{v}`
(span.hpp:120-129) with `begin()` and `end()` of the vector (cx_vector.hpp:39-59); `conv`: `span<T, ext>{s}` (span.hpp:131-138); `sub`:
span.hpp:181-226 (a call that does not compile is `ub` here); `read`, `write`: `operator[]` (177-179); `iterate`: 144-161; `count`:
28 and 48-50. -/
def step [DecidableEq ι] [DecidableEq κ] (N : Nat) (st : St ι κ α) : Act ι κ α → Outcome (St ι κ α × CxVector.Out α)
  | .vec i o => do
    let (b, r) ← CxVector.step N (st.vecs i) o
    return (⟨upd st.vecs i b, st.spans⟩, r)
  | .copy d s => .ok (⟨upd st.vecs d (st.vecs s), st.spans⟩, .unit)
  | .view k i ext => .ok (⟨st.vecs, upd st.spans k (some (i, Span.ofRange ext 0 (st.vecs i).size))⟩, .unit)
  | .conv k j ext => withSpan st j fun i s => .ok (⟨st.vecs, upd st.spans k (some (i, Span.ofSpan ext s))⟩, .unit)
  | .sub k j c => withSpan st j fun i s =>
    match c.run (st.vecs i).storage.length s with
    | some r => do
      let t ← r
      return (⟨st.vecs, upd st.spans k (some (i, t))⟩, .unit)
    | none => .ub
  | .read k n => withSpan st k fun i s => do
    let x ← Span.get (st.vecs i).storage s n
    return (st, .val x)
  | .write k n x => withSpan st k fun i s => do
    let m ← Span.set (st.vecs i).storage s n x
    return (⟨upd st.vecs i ⟨m, (st.vecs i).size⟩, st.spans⟩, .unit)
  | .iterate k => withSpan st k fun i s => do
    let l ← Span.toList (st.vecs i).storage s
    return (st, .list l)
  | .count k => withSpan st k fun _ s => .ok (st, .nat (Span.size s))

/-- A program: statement after statement (cx_vector.hpp:15-161, span.hpp:60-226). -/
def run [DecidableEq ι] [DecidableEq κ] (N : Nat) (st : St ι κ α) :
    List (Act ι κ α) → Outcome (St ι κ α × List (CxVector.Out α))
  | [] => .ok (st, [])
  | a :: as => do
    let (s1, r) ← step N st a
    let (s2, rs) ← run N s1 as
    return (s2, r :: rs)

end Verif.Views
