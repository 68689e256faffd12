import Verif.CtFormat.Model
import Mathlib.Data.List.Forall2

/-!
# Format strings as sequences of fields

The specification side of C56/C57: a format string is a sequence of segments, each a literal text followed
by a replacement field `{name}` or `{name:spec}`, and a last text.
-/

namespace Verif.CtFormat

/-- A literal text followed by a replacement field. -/
structure Seg where
  text : List Char
  name : List Char
  spec : Option (List Char)
  deriving DecidableEq

/-- The format specifier with its colon. -/
def Seg.tail (s : Seg) : List Char :=
  match s.spec with
  | none => []
  | some x => ':' :: x

/-- The field after its opening brace. -/
def Seg.body (s : Seg) : List Char := s.name ++ (s.tail ++ ['}'])

/-- The characters of a segment. -/
def Seg.chars (s : Seg) : List Char := s.text ++ '{' :: s.body

/-- The format string. -/
def render (segs : List Seg) (last : List Char) : List Char := segs.flatMap Seg.chars ++ last

/-- A literal text: opening braces come in pairs. -/
inductive TextOK : List Char → Prop
  | nil : TextOK []
  | plain {c : Char} {t : List Char} : c ≠ '{' → TextOK t → TextOK (c :: t)
  | esc {t : List Char} : TextOK t → TextOK ('{' :: '{' :: t)

/-- A text without braces. -/
def Plain (t : List Char) : Prop := '{' ∉ t ∧ '}' ∉ t

/-- A well-formed segment: its name has no brace and no colon, its specifier no brace. -/
structure Seg.WF (s : Seg) : Prop where
  text : TextOK s.text
  name : Plain s.name ∧ ':' ∉ s.name
  spec : ∀ x, s.spec = some x → Plain x

/-- What the formatting library must do for a format string with one field and no other braces: copy the text and
put the formatted value (`Tv`, `Ts`) in place of the field. -/
structure Formats {κ : Type} (F : Formatter κ) (Tv : List Char → κ → Option (List Char))
    (Ts : List Char → List Char → Option (List Char)) : Prop where
  val : ∀ text tail v, Plain text → Plain tail → (tail = [] ∨ tail.head? = some ':') →
    F.val (text ++ '{' :: (tail ++ ['}'])) v = (Tv tail v).map (text ++ ·)
  str : ∀ text tail x, Plain text → Plain tail → (tail = [] ∨ tail.head? = some ':') →
    F.str (text ++ '{' :: (tail ++ ['}'])) x = (Ts tail x).map (text ++ ·)

/-! ## The expected result of a call -/

variable {κ ρ : Type}

/-- The text that takes the place of a segment's field: the formatted value, or the field itself (without its
name) for a runtime argument.  `stdx::tuple`s as runtime arguments are left out here (`NoTuples`). -/
def fieldText (Tv : List Char → κ → Option (List Char)) (Ts : List Char → List Char → Option (List Char)) (s : Seg) :
    Arg κ ρ → Option (List Char)
  | .ct v => Tv s.tail v
  | .rt _ => some ('{' :: (s.tail ++ ['}']))
  | .tup _ => none
  | .res r => Ts s.tail r.str

/-- The expected string. -/
def expectStr (Tv : List Char → κ → Option (List Char)) (Ts : List Char → List Char → Option (List Char)) (last : List Char) :
    List Seg → List (Arg κ ρ) → Option (List Char)
  | [], [] => some last
  | s :: ss, a :: as =>
    match fieldText Tv Ts s a, expectStr Tv Ts last ss as with
    | some t, some r => some (s.text ++ t ++ r)
    | _, _ => none
  | _, _ => none

/-- The runtime values an argument contributes (`stdx::tuple`s as runtime arguments are left out). -/
def Arg.runtime : Arg κ ρ → List ρ
  | .ct _ => []
  | .rt r => [r]
  | .tup _ => []
  | .res r => r.args

/-- No runtime argument is a `stdx::tuple`. -/
def NoTuples (args : List (Arg κ ρ)) : Prop := ∀ a ∈ args, ∀ rs, a ≠ .tup rs

/-- A segment is well formed, and its text has no braces if the formatting library gets to see it. -/
def SegFor (s : Seg) (a : Arg κ ρ) : Prop := s.WF ∧ ((∃ r, a = .rt r) ∨ Plain s.text)

/-- Segments and arguments match. -/
inductive Match : List Seg → List (Arg κ ρ) → Prop
  | nil : Match [] []
  | cons {s a ss as} : SegFor s a → Match ss as → Match (s :: ss) (a :: as)

/-! ## What named arguments mean -/

/-- A named argument stands for a piece of the string or for a runtime value. -/
inductive Meaning (ρ : Type) where
  | text (t : List Char)
  | arg (r : ρ)

/-- In the result `R`, the entry `n` has the name and the meaning given. -/
def Means (R : Result ρ) (n : Named) (m : List Char × Meaning ρ) : Prop :=
  n.name = m.1 ∧
  match m.2 with
  | .text t => n.isRuntime = false ∧ ∃ k : Nat, n.first = k ∧ n.last = k + t.length ∧ k + t.length ≤ R.str.length ∧
      slice R.str k (k + t.length) = t
  | .arg r => n.isRuntime = true ∧ ∃ k : Nat, n.first = k ∧ R.args[k]? = some r

/-- The entries of a result mean the given list, in order. -/
def NamedMeans (R : Result ρ) (ms : List (List Char × Meaning ρ)) : Prop := List.Forall₂ (Means R) R.named ms

/-! ## Nested calls -/

/-- A call of `ct_format` whose arguments may be results of calls, to any depth: the segments of the format string
with their arguments, and the last text.  `nest text name inner rest` is a segment `text{name}` whose argument is
the result of the call `inner`. -/
inductive Call (κ ρ : Type) where
  | last (t : List Char)
  | arg (s : Seg) (a : Arg κ ρ) (rest : Call κ ρ)
  | nest (text name : List Char) (inner rest : Call κ ρ)

/-- The segments of the outer format string. -/
def Call.segs : Call κ ρ → List Seg
  | .last _ => []
  | .arg s _ rest => s :: rest.segs
  | .nest t n _ rest => ⟨t, n, none⟩ :: rest.segs

/-- Its last text. -/
def Call.final : Call κ ρ → List Char
  | .last t => t
  | .arg _ _ rest => rest.final
  | .nest _ _ _ rest => rest.final

/-- Evaluating the arguments: inner calls first. -/
def Call.evalArgs (F : Formatter κ) : Call κ ρ → Outcome (List (Arg κ ρ))
  | .last _ => .ok []
  | .arg _ a rest => do
    let as ← rest.evalArgs F
    return a :: as
  | .nest _ _ inner rest => do
    let is ← inner.evalArgs F
    let r ← ctFormat F (render inner.segs inner.final) is
    let as ← rest.evalArgs F
    return .res r :: as

/-- Evaluating the call. -/
def Call.eval (F : Formatter κ) (c : Call κ ρ) : Outcome (Result ρ) := do
  let as ← c.evalArgs F
  ctFormat F (render c.segs c.final) as

/-- One call with everything spliced in: `acc` is the literal text pending before it. -/
def Call.flat (acc : List Char) : Call κ ρ → List Seg × List (Arg κ ρ) × List Char
  | .last t => ([], [], acc ++ t)
  | .arg s a rest =>
    let f := rest.flat []
    (⟨acc ++ s.text, s.name, s.spec⟩ :: f.1, a :: f.2.1, f.2.2)
  | .nest t _ inner rest =>
    let i := inner.flat (acc ++ t)
    let f := rest.flat i.2.2
    (i.1 ++ f.1, i.2.1 ++ f.2.1, f.2.2)

/-- All literal texts are free of braces, and the fields well formed. -/
def Call.WF : Call κ ρ → Prop
  | .last t => Plain t
  | .arg s _ rest => s.WF ∧ Plain s.text ∧ rest.WF
  | .nest t n inner rest => Plain t ∧ Plain n ∧ ':' ∉ n ∧ inner.WF ∧ rest.WF

end Verif.CtFormat
