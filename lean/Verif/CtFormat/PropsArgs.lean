import Verif.CtFormat.Args
import Verif.CtFormat.PropsEsc

/-!
# C100: an argument is formatted by what it denotes, in whatever form it is given
-/

namespace Verif.CtFormat

variable {κ ε τ : Type}

/-- `n` applications of `CX_VALUE`. -/
def wrap : Nat → Form κ ε τ → Form κ ε τ
  | 0, f => f
  | n + 1, f => .cx (wrap n f)

/-- What the formatting library is given for a constant: its value, or the name of an enumerator. -/
def denoted (N : Names ε τ) : Obj κ ε → κ ⊕ List Char
  | .val v => .inl v
  | .enumerator e => .inr (N.enumName e)

/-- What an argument stands for: a constant for its value (an enumerator for its name), a type for its name, a string
for its characters, a result for itself, all of them under any number of `CX_VALUE`s.  An object stands for a
runtime argument unless it is under at least one `CX_VALUE`: then it is a constant; the same for a tuple. -/
inductive Stands (N : Names ε τ) : Form κ ε τ → Arg (κ ⊕ List Char) (Obj κ ε) → Prop
  | runtime (o) : Stands N (.obj o) (.rt o)
  | tuple (v os) : Stands N (.tup v os) (.tup os)
  | tupleValue (n v os) : Stands N (wrap (n + 1) (.tup v os)) (.ct (.inl v))
  | value (n o) : Stands N (wrap (n + 1) (.obj o)) (.ct (denoted N o))
  | constant (n o) : Stands N (wrap n (.constant o)) (.ct (denoted N o))
  | type (n t) : Stands N (wrap n (.type t)) (.ct (.inr (N.typeName t)))
  | cts (n s) : Stands N (wrap n (.cts s)) (.ct (.inr s))
  | seq (n s) : Stands N (wrap n (.seq s)) (.ct (.inr s))
  | result (n r) : Stands N (wrap n (.result r)) (.res r.res)

/-- The formatting library for values and strings. -/
def withStrings (F : Formatter κ) : Formatter (κ ⊕ List Char) where
  val s x := match x with
    | .inl v => F.val s v
    | .inr x => F.str s x
  str := F.str

/-- A constant below `n` `CX_VALUE`s. -/
theorem argValue_wrap (N : Names ε τ) {f : Form κ ε τ} {v : ArgVal κ ε} (h : argValue N f = some v) :
    ∀ n, argValue N (wrap n f) = some v
  | 0 => h
  | n + 1 => by simp [wrap, argValue, argValue_wrap N h n, fmtCxValue, isCxValue]

theorem format1Form_of (F : Formatter κ) (N : Names ε τ) (fmt name : List Char) (start : Nat) {f : Form κ ε τ} {v : ArgVal κ ε}
    (h : argValue N f = some v) (hr : readable f = true) :
    format1Form F N fmt name start f = format1Value F fmt name start v := by
  unfold format1Form; rw [h]; exact if_pos hr

theorem readable_wrap {f : Form κ ε τ} (h : readable f = true) : ∀ n, readable (wrap n f) = true
  | 0 => h
  | _ + 1 => rfl

theorem format1Value_denoted (F : Formatter κ) (N : Names ε τ) (fmt name : List Char) (start : Nat) (o : Obj κ ε)
    {v : ArgVal κ ε} (hv : argValue N (.cx (.obj o)) = some v) :
    format1Value F fmt name start v = format1 (withStrings F) fmt name start (.ct (denoted N o)) := by
  cases o <;> cases hv <;> simp only [format1Value, format1, withStrings, denoted, nameInfo]
  · cases F.val fmt _ <;> simp only
    split <;> rfl
  · cases F.str fmt _ <;> simp only
    split <;> rfl

theorem format1Value_str (F : Formatter κ) (fmt name : List Char) (start : Nat) (s : List Char) :
    format1Value (ε := ε) F fmt name start (.str s) = format1 (withStrings F) fmt name start (.ct (.inr s)) := by
  simp only [format1Value, format1, withStrings, nameInfo]
  cases F.str fmt s <;> simp only
  split <;> rfl

theorem format1Value_result (F : Formatter κ) (fmt name : List Char) (start : Nat) (r : FR (Obj κ ε)) :
    format1Value F fmt name start (.result r) = format1 (withStrings F) fmt name start (.res r.res) := rfl

theorem format1Form_eq (F : Formatter κ) (N : Names ε τ) (fmt name : List Char) (start : Nat) {f : Form κ ε τ}
    {a : Arg (κ ⊕ List Char) (Obj κ ε)} (h : Stands N f a) :
    format1Form F N fmt name start f = format1 (withStrings F) fmt name start a := by
  cases h with
  | runtime o =>
    simp only [format1Form, argValue, format1]
    split <;> rfl
  | tuple v os =>
    simp only [format1Form, argValue, format1]
    split <;> rfl
  | tupleValue n v os =>
    have hv : argValue N (.cx (.tup v os) : Form κ ε τ) = some (.val v) := rfl
    have hw : wrap (n + 1) (.tup v os) = wrap n (.cx (.tup v os) : Form κ ε τ) := by
      induction n with
      | zero => rfl
      | succ n ih => rw [wrap, ih]; rfl
    rw [hw, format1Form_of F N fmt name start (argValue_wrap N hv n) (readable_wrap rfl n)]
    exact format1Value_denoted F N fmt name start (.val v) rfl
  | value n o =>
    have h0 : ∃ v, argValue N (.cx (.obj o) : Form κ ε τ) = some v := by cases o <;> exact ⟨_, rfl⟩
    obtain ⟨v, hv⟩ := h0
    have hw : wrap (n + 1) (.obj o) = wrap n (.cx (.obj o) : Form κ ε τ) := by
      induction n with
      | zero => rfl
      | succ n ih => rw [wrap, ih]; rfl
    rw [hw, format1Form_of F N fmt name start (argValue_wrap N hv n) (readable_wrap rfl n), format1Value_denoted F N fmt name start o hv]
  | constant n o =>
    have h0 : argValue N (.constant o : Form κ ε τ) = argValue N (.cx (.obj o) : Form κ ε τ) := by cases o <;> rfl
    have h1 : ∃ v, argValue N (.cx (.obj o) : Form κ ε τ) = some v := by cases o <;> exact ⟨_, rfl⟩
    obtain ⟨v, hv⟩ := h1
    rw [format1Form_of F N fmt name start (argValue_wrap N (h0.trans hv) n) (readable_wrap rfl n), format1Value_denoted F N fmt name start o hv]
  | type n t => rw [format1Form_of F N fmt name start (argValue_wrap N rfl n) (readable_wrap rfl n), format1Value_str]
  | cts n s => rw [format1Form_of F N fmt name start (argValue_wrap N rfl n) (readable_wrap rfl n), format1Value_str]
  | seq n s => rw [format1Form_of F N fmt name start (argValue_wrap N rfl n) (readable_wrap rfl n), format1Value_str]
  | result n r =>
    by_cases hc : fmtCxValue (.result r : Form κ ε τ) = true
    · have hv : argValue N (.result r : Form κ ε τ) = some (.result r) := by rw [argValue, if_pos hc]
      have hr : readable (.result r : Form κ ε τ) = true := by
        simp only [fmtCxValue, isCxValue, fromType, FR.isCx, Option.isSome_none, Bool.or_false, Bool.and_eq_true] at hc
        exact hc.1
      rw [format1Form_of F N fmt name start (argValue_wrap N hv n) (readable_wrap hr n), format1Value_result]
    · have hv : argValue N (.result r : Form κ ε τ) = none := by rw [argValue, if_neg hc]
      cases n with
      | zero =>
        simp only [wrap, format1Form, hv]
        have hs : argValue N (r.strForm : Form κ ε τ) = some (.str r.res.str) := by
          unfold FR.strForm; split <;> rfl
        rw [hs]
        simp only [format1Value, format1, withStrings]
        cases F.str fmt r.res.str <;> rfl
      | succ n =>
        have hw : wrap (n + 1) (.result r) = wrap n (.cx (.result r) : Form κ ε τ) := by
          induction n with
          | zero => rfl
          | succ n ih => rw [wrap, ih]; rfl
        have hx : argValue N (.cx (.result r) : Form κ ε τ) = some (.result r) := by
          show (match argValue N (.result r) with | some v => some v | none => callValue N (.result r)) = _
          rw [hv]; rfl
        rw [hw, format1Form_of F N fmt name start (argValue_wrap N hx n) (readable_wrap rfl n), format1Value_result]

theorem formatAs_getD (custom : Form κ ε τ → Option (Form κ ε τ)) (f : Form κ ε τ) :
    formatAs custom f = (custom f).getD f := by
  unfold formatAs; cases custom f <;> rfl

theorem foldForms_eq (F : Formatter κ) (N : Names ε τ) (custom : Form κ ε τ → Option (Form κ ε τ)) (splits : List Split)
    (last : Result (Obj κ ε)) {fs : List (Form κ ε τ)} {as : List (Arg (κ ⊕ List Char) (Obj κ ε))}
    (h : List.Forall₂ (fun f a => Stands N ((custom f).getD f) a) fs as) (i : Nat) :
    foldForms F N custom splits last i fs = foldArgs (withStrings F) splits last i as := by
  induction h generalizing i with
  | nil => rfl
  | cons h1 _ ih =>
    simp only [foldForms, foldArgs]
    cases arrGet splits i with
    | ub => rfl
    | panic => rfl
    | ok s =>
      simp only [Outcome.ok_bind]
      cases extract s.view s.start with
      | ub => rfl
      | panic => rfl
      | ok e =>
        simp only [Outcome.ok_bind]
        rw [show formatAs custom _ = (custom _).getD _ from formatAs_getD custom _, format1Form_eq F N e.1 e.2 s.start h1, ih]

/-- Wrapping is injective on what is not wrapped. -/
def unwrapped : Form κ ε τ → Form κ ε τ
  | .cx f => unwrapped f
  | f => f

theorem unwrapped_wrap (n : Nat) (f : Form κ ε τ) : unwrapped (wrap n f) = unwrapped f := by
  induction n with
  | zero => rfl
  | succ n ih => rw [wrap, unwrapped, ih]

/-- **C100.** Every argument stands for exactly one thing. -/
theorem C100_stands (N : Names ε τ) (f : Form κ ε τ) : ∃ a, Stands N f a ∧ ∀ b, Stands N f b → b = a := by
  have ex : ∃ n g, f = wrap n g ∧ ∀ h, g ≠ .cx h := by
    induction f with
    | cx f ih => obtain ⟨n, g, e, h⟩ := ih; exact ⟨n + 1, g, by rw [wrap, ← e], h⟩
    | _ => exact ⟨0, _, rfl, fun h => by simp⟩
  have fn : ∀ {a b}, Stands N f a → Stands N f b → a = b := by
    intro a b ha hb
    have key : ∀ {g : Form κ ε τ} {n a}, Stands N (wrap n g) a → (∀ h, g ≠ .cx h) →
        a = match g with
          | .obj o => if n = 0 then .rt o else .ct (denoted N o)
          | .tup v os => if n = 0 then .tup os else .ct (.inl v)
          | .constant o => .ct (denoted N o)
          | .type t => .ct (.inr (N.typeName t))
          | .cts s => .ct (.inr s)
          | .seq s => .ct (.inr s)
          | .result r => .res r.res
          | .cx _ => a := by
      intro g n a h hg
      generalize e : wrap n g = w at h
      have eu : unwrapped g = unwrapped w := by rw [← e, unwrapped_wrap]
      have eg : unwrapped g = g := by cases g <;> first | rfl | exact absurd rfl (hg _)
      rw [eg] at eu
      cases h with
      | runtime o =>
        cases n with
        | zero => subst eu; rfl
        | succ n => cases e
      | tuple v os =>
        cases n with
        | zero => subst eu; rfl
        | succ n => cases e
      | tupleValue m v os =>
        rw [unwrapped_wrap] at eu
        subst eu
        cases n with
        | zero => cases e
        | succ n => rfl
      | value m o =>
        rw [unwrapped_wrap] at eu
        subst eu
        cases n with
        | zero => cases e
        | succ n => rfl
      | constant m o => rw [unwrapped_wrap] at eu; subst eu; rfl
      | type m o => rw [unwrapped_wrap] at eu; subst eu; rfl
      | cts m o => rw [unwrapped_wrap] at eu; subst eu; rfl
      | seq m o => rw [unwrapped_wrap] at eu; subst eu; rfl
      | result m o => rw [unwrapped_wrap] at eu; subst eu; rfl
    obtain ⟨n, g, e, hg⟩ := ex
    subst e
    have h1 := key ha hg
    have h2 := key hb hg
    cases g with
    | cx g => exact absurd rfl (hg g)
    | _ => rw [h1, h2]
  obtain ⟨n, g, e, hg⟩ := ex
  have : ∃ a, Stands N f a := by
    subst e
    cases g with
    | cx g => exact absurd rfl (hg g)
    | obj o =>
      cases n with
      | zero => exact ⟨_, .runtime o⟩
      | succ n => exact ⟨_, .value n o⟩
    | tup v os =>
      cases n with
      | zero => exact ⟨_, .tuple v os⟩
      | succ n => exact ⟨_, .tupleValue n v os⟩
    | constant o => exact ⟨_, .constant n o⟩
    | type t => exact ⟨_, .type n t⟩
    | cts s => exact ⟨_, .cts n s⟩
    | seq s => exact ⟨_, .seq n s⟩
    | result r => exact ⟨_, .result n r⟩
  obtain ⟨a, ha⟩ := this
  exact ⟨a, ha, fun b hb => fn hb ha⟩

/-- **C100.** A call of `ct_format` gives the same result as the call with what its arguments stand for (after the
user's `ct_format_as`, once), for every format string. -/
theorem C100_forms (F : Formatter κ) (N : Names ε τ) (custom : Form κ ε τ → Option (Form κ ε τ)) (asType : Bool)
    (fmt : List Char) {fs : List (Form κ ε τ)} {as : List (Arg (κ ⊕ List Char) (Obj κ ε))}
    (h : List.Forall₂ (fun f a => Stands N ((custom f).getD f) a) fs as) :
    ctFormatForms F N custom asType fmt fs =
      (ctFormat (withStrings F) fmt as).bind fun r => .ok ⟨r, asType⟩ := by
  unfold ctFormatForms ctFormat
  have hl : fs.length = as.length := h.length_eq
  cases countSpecifiers fmt with
  | ub => rfl
  | panic => rfl
  | ok n =>
    simp only [Outcome.ok_bind]
    cases splitSpecifiers (n + 1) fmt with
    | ub => rfl
    | panic => rfl
    | ok splits =>
      simp only [Outcome.ok_bind]
      cases arrGet splits n with
      | ub => rfl
      | panic => rfl
      | ok last =>
        simp only [Outcome.ok_bind, hl]
        split
        · rfl
        · rw [foldForms_eq F N custom splits _ h]; rfl

/-- **C100.** Two calls with the same format string whose arguments stand pairwise for the same things give the same
result: a value may be given as `std::integral_constant` or wrapped in any number of `CX_VALUE`s, a string as a `cts_t`
or as a type, a result as it is or as a constant. -/
theorem C100_same (F : Formatter κ) (N : Names ε τ) (custom : Form κ ε τ → Option (Form κ ε τ)) (asType : Bool)
    (fmt : List Char) {fs gs : List (Form κ ε τ)}
    (h : List.Forall₂ (fun f g => ∃ a, Stands N ((custom f).getD f) a ∧ Stands N ((custom g).getD g) a) fs gs) :
    ctFormatForms F N custom asType fmt fs = ctFormatForms F N custom asType fmt gs := by
  have : ∃ as, List.Forall₂ (fun f a => Stands N ((custom f).getD f) a) fs as ∧
      List.Forall₂ (fun f a => Stands N ((custom f).getD f) a) gs as := by
    induction h with
    | nil => exact ⟨[], .nil, .nil⟩
    | cons h1 _ ih =>
      obtain ⟨a, ha, hb⟩ := h1
      obtain ⟨as, hf, hg⟩ := ih
      exact ⟨a :: as, .cons ha hf, .cons hb hg⟩
  obtain ⟨as, hf, hg⟩ := this
  rw [C100_forms F N custom asType fmt hf, C100_forms F N custom asType fmt hg]

/-- The text of a value or a string. -/
def textSum (Tv : List Char → κ → Option (List Char)) (Ts : List Char → List Char → Option (List Char)) (tail : List Char) :
    κ ⊕ List Char → Option (List Char)
  | .inl v => Tv tail v
  | .inr x => Ts tail x

/-- **C100.** With arguments in any forms, the string of the result is the format string with the text of each
compile-time argument in place of its field, and the runtime arguments are kept in order.  The result converts to a
string exactly if there are none, and the string is then the result's.  Missing: runtime arguments that are
`stdx::tuple`s (`C100_tuple_violated`). -/
theorem C100_text_partial {F : Formatter κ} {Tv : List Char → κ → Option (List Char)} {Ts : List Char → List Char → Option (List Char)}
    (hF : Formats F Tv Ts) (N : Names ε τ) (custom : Form κ ε τ → Option (Form κ ε τ)) (asType : Bool) {last : List Char}
    (hl : TextOK last) {segs : List Seg} {fs : List (Form κ ε τ)} {as : List (Arg (κ ⊕ List Char) (Obj κ ε))}
    (h : List.Forall₂ (fun f a => Stands N ((custom f).getD f) a) fs as) (hm : Match segs as) (hn : NoTuples as) {str : List Char}
    (he : expectStr (textSum Tv Ts) Ts last segs as = some str) :
    ∃ r, ctFormatForms F N custom asType (render segs last) fs = .ok ⟨r, asType⟩ ∧ r.str = str ∧
      r.args = as.flatMap Arg.runtime ∧
      ((∀ a ∈ as, a.runtime = []) → FR.plus ⟨r, asType⟩ = .ok str) ∧
      ((∃ a ∈ as, a.runtime ≠ []) → FR.plus ⟨r, asType⟩ = .ub) := by
  have hF' : Formats (withStrings F) (textSum Tv Ts) Ts := by
    refine ⟨fun text tail v h1 h2 h3 => ?_, hF.str⟩
    cases v with
    | inl v => exact hF.val text tail v h1 h2 h3
    | inr x => exact hF.str text tail x h1 h2 h3
  obtain ⟨r, e, e1, e2⟩ := (C56_ct_format_partial hF' hl hm hn).1 str he
  refine ⟨r, by rw [C100_forms F N custom asType _ h, e]; rfl, e1, e2, fun hr => ?_, fun ⟨a, ha, hr⟩ => ?_⟩
  · rw [FR.plus, if_pos (by rw [e2, List.length_eq_zero_iff, List.flatMap_eq_nil_iff]; exact hr), e1]
  · rw [FR.plus, if_neg]
    rw [e2, List.length_eq_zero_iff, List.flatMap_eq_nil_iff]
    exact fun hx => hr (hx a ha)

/-! ## Cases -/

/-- A formatting library that knows `{}` only, for values that are strings. -/
def plainFormatter : Formatter (List Char) := ⟨escFormat, escFormat⟩

/-- Names of enumerators and types. -/
def someNames : Names Nat Nat := ⟨fun n => if n = 0 then ['r', 'e', 'd'] else ['b'], fun _ => ['i', 'n', 't']⟩

/-- A type with a `ct_format_as` that turns the object `?` into the constant `!`. -/
def someCustom : Form (List Char) Nat Nat → Option (Form (List Char) Nat Nat)
  | .obj (.val ['?']) => some (.constant (.val ['!']))
  | _ => none

/-- The format string `a{}b{}{}{}c`. -/
def someSegs : List Seg := [⟨['a'], [], none⟩, ⟨['b'], [], none⟩, ⟨[], [], none⟩, ⟨[], [], none⟩]

/-- An enumerator under two `CX_VALUE`s, a runtime value, a type, and a value with a `ct_format_as`. -/
def someForms : List (Form (List Char) Nat Nat) :=
  [.cx (.cx (.obj (.enumerator 0))), .obj (.val ['x']), .cx (.type 3), .obj (.val ['?'])]

example : List.Forall₂ (fun f a => Stands someNames ((someCustom f).getD f) a) someForms
    [.ct (.inr ['r', 'e', 'd']), .rt (.val ['x']), .ct (.inr ['i', 'n', 't']), .ct (.inl ['!'])] :=
  .cons (.value 1 _) (.cons (.runtime _) (.cons (.type 1 _) (.cons (.constant 0 _) .nil)))

example : (ctFormatForms plainFormatter someNames someCustom false (render someSegs ['c']) someForms) =
    .ok ⟨⟨"aredb{}int!c".toList, [.val ['x']], []⟩, false⟩ := by decide

end Verif.CtFormat
