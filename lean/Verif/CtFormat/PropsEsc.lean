import Verif.CtFormat.Props
import Verif.Fmt.Props

/-!
# `ct_format` and the formatting libraries (C56, C57)

The freestanding formatter of `detail/fmt.hpp` satisfies the contract the theorems of `Props.lean` assume.
fmtlib, in addition, accepts escaped braces (`{{`, `}}`) in the text before a field and prints one brace for
each pair.  Then the text before a compile-time argument is no longer a format string's text, and the
properties fail when it has escaped braces.
-/

namespace Verif.CtFormat

variable {κ ρ : Type}

/-! ## The freestanding formatter -/

open CtString in
/-- The values the freestanding formatter can format. -/
def Formattable : Fmt.Val → Prop
  | .range _ => True
  | .cstr a => nul ∈ a
  | .chr _ => True
  | .num t v => ∃ w s, t = .int w s ∧ 8 ≤ w ∧ t.InRange v

/-- The fuel for a value. -/
def fuelFor : Fmt.Val → Nat
  | .num (.int w _) _ => w + 1
  | _ => 0

/-- The result of `perform_format` as characters. -/
def charsOf : Outcome (Option CtString.CtString) → Option (List Char)
  | .ok (some s) => some s.dropLast
  | _ => none

/-- `perform_format` with the freestanding library (`Verif/Fmt/Model.lean`). -/
def freestanding : Formatter { v : Fmt.Val // Formattable v } where
  val s v := charsOf (Fmt.performFormat (fuelFor v.1) (s ++ [CtString.nul]) v.1)
  str s x := charsOf (Fmt.performFormat 0 (s ++ [CtString.nul]) (.range x))

/-- The text of a value in a base. -/
def textOf (base : Nat) : Fmt.Val → List Char
  | .range cs => cs
  | .cstr a => a.takeWhile (fun c => decide (c ≠ CtString.nul))
  | .chr c => [c]
  | .num _ v => Fmt.numeral base v

/-- The text of a value for a specifier: decimal by default, hexadecimal for `:x`, no other. -/
def textFor (tail : List Char) (v : Fmt.Val) : Option (List Char) :=
  if tail = [] then some (textOf 10 v) else if tail = [':', 'x'] then some (textOf 16 v) else none

theorem takeWhile_nul {a : List Char} (h : CtString.nul ∈ a) :
    CtString.nul ∉ a.takeWhile (fun c => decide (c ≠ CtString.nul)) ∧
      ∃ rest, a = a.takeWhile (fun c => decide (c ≠ CtString.nul)) ++ CtString.nul :: rest := by
  induction a with
  | nil => cases h
  | cons c a ih =>
    by_cases hc : c = CtString.nul
    · subst hc; refine ⟨by simp, a, by simp⟩
    · rcases List.mem_cons.mp h with h | h
      · exact absurd h.symm hc
      · obtain ⟨h1, rest, h2⟩ := ih h
        have e : (c :: a).takeWhile (fun c => decide (c ≠ CtString.nul)) = c :: a.takeWhile (fun c => decide (c ≠ CtString.nul)) := by
          rw [List.takeWhile_cons, if_pos (by simp [hc])]
        rw [e]
        refine ⟨?_, rest, by rw [List.cons_append, ← h2]⟩
        rw [List.mem_cons, not_or]
        exact ⟨fun e => hc e.symm, h1⟩

theorem valText_textOf (base : Nat) {v : Fmt.Val} (h : Formattable v) : Fmt.ValText base v (textOf base v) := by
  cases v with
  | range cs => rfl
  | cstr a => exact takeWhile_nul h
  | chr c => rfl
  | num t v =>
    obtain ⟨w, s, rfl, hw, hr⟩ := h
    exact ⟨w, s, rfl, hw, hr, rfl⟩

theorem fuelFor_ok {v : Fmt.Val} (h : Formattable v) : Fmt.FuelFor (fuelFor v) v := by
  cases v with
  | num t v =>
    obtain ⟨w, s, rfl, _⟩ := h
    show w < w + 1
    omega
  | _ => trivial

theorem perform_text {text tail : List Char} (ht : Plain text) (hp : Plain tail) (hs : tail = [] ∨ tail.head? = some ':')
    {fuel : Nat} {v : Fmt.Val} (hv : Formattable v) (hf : Fmt.FuelFor fuel v) :
    charsOf (Fmt.performFormat fuel (text ++ '{' :: (tail ++ ['}']) ++ [CtString.nul]) v) =
      (textFor tail v).map (text ++ ·) := by
  have good : ∀ (field : List Char) (base : Nat), Fmt.Field field base → '{' :: (tail ++ ['}']) = field →
      charsOf (Fmt.performFormat fuel (text ++ '{' :: (tail ++ ['}']) ++ [CtString.nul]) v) = some (text ++ textOf base v) := by
    intro field base hfi he
    obtain ⟨_, s, e, hh⟩ := Fmt.C58_format_partial (tail := []) hfi ht.1 (by simp)
      (fmt := text ++ '{' :: (tail ++ ['}']) ++ [CtString.nul]) (by rw [CtString.Holds, he]; simp) (valText_textOf base hv) hf
    rw [e]
    rw [CtString.Holds] at hh
    simp only [charsOf]
    rw [hh, List.dropLast_concat, List.append_nil]
  unfold textFor
  by_cases h0 : tail = []
  · rw [if_pos h0, good ['{', '}'] 10 (Or.inl ⟨rfl, rfl⟩) (by rw [h0]; rfl)]; rfl
  · rw [if_neg h0]
    by_cases h1 : tail = [':', 'x']
    · rw [if_pos h1, good ['{', ':', 'x', '}'] 16 (Or.inr ⟨rfl, rfl⟩) (by rw [h1]; rfl)]; rfl
    · rw [if_neg h1]
      obtain ⟨r, rfl⟩ : ∃ r, tail = ':' :: r := by
        cases tail with
        | nil => exact absurd rfl h0
        | cons c r => simp at hs; exact ⟨r, by rw [hs]⟩
      have hn : Fmt.parseSpec (text ++ '{' :: (':' :: r ++ ['}']) ++ [CtString.nul]) = .ok none := by
        unfold Fmt.parseSpec
        rw [List.append_assoc, List.cons_append, Fmt.toBrace_eq ht.1, Outcome.ok_bind]
        cases r with
        | nil => rfl
        | cons d r =>
          by_cases hd : d = 'x'
          · subst hd
            cases r with
            | nil => exact absurd rfl h1
            | cons e r =>
              have he : e ≠ '}' := by
                intro he; subst he; exact hp.2 (by simp)
              simp [he]
          · simp [hd]
      unfold Fmt.performFormat Fmt.formattedSize
      rw [hn]
      rfl

/-- The freestanding formatter satisfies the contract that C56, C57 and C79 assume. -/
theorem C56_freestanding_contract : Formats freestanding (fun tail v => textFor tail v.1) (fun tail x => textFor tail (.range x)) where
  val := fun _ _ v ht hp hs => perform_text ht hp hs v.2 (fuelFor_ok v.2)
  str := fun _ _ _ ht hp hs => perform_text ht hp hs (v := .range _) trivial trivial

theorem freestanding_str (x : List Char) : textFor [] (.range x) = some x := rfl

/-! ## Any formatter -/

/-- The result of one segment, with any formatter. -/
def pieceAny (F : Formatter κ) (s : Seg) (a : Arg κ ρ) : Outcome (Result ρ) :=
  format1 F (s.text ++ '{' :: (s.tail ++ ['}'])) s.name s.text.length a

/-- The result of a call, with any formatter. -/
def resAny (F : Formatter κ) (last : List Char) : List Seg → List (Arg κ ρ) → Outcome (Result ρ)
  | s :: ss, a :: as => do
    let x ← pieceAny F s a
    let y ← resAny F last ss as
    return x.add y
  | _, _ => .ok (lit last)

theorem foldArgs_any (F : Formatter κ) (last : List Char) {segs : List Seg} (hs : ∀ s ∈ segs, s.WF) {args : List (Arg κ ρ)}
    (h : segs.length = args.length) (done : List Split) (rest : List Split) :
    foldArgs F (done ++ (segs.map Seg.split ++ rest)) (lit last) done.length args = resAny F last segs args := by
  induction segs generalizing args done with
  | nil =>
    have : args = [] := List.eq_nil_of_length_eq_zero h.symm
    subst this; rfl
  | cons s ss ih =>
    cases args with
    | nil => simp at h
    | cons a as =>
      rw [foldArgs]
      have hg : arrGet (done ++ ((s :: ss).map Seg.split ++ rest)) done.length = .ok s.split := by
        rw [arrGet_ok, List.getElem?_append_right (by omega)]; simp
      rw [hg, Outcome.ok_bind]
      have he : extract s.split.view s.split.start = .ok (s.text ++ '{' :: (s.tail ++ ['}']), s.name) :=
        extract_seg (hs s (by simp))
      rw [he, Outcome.ok_bind]
      have := ih (fun x hx => hs x (by simp [hx])) (by simpa using h) (done ++ [s.split])
      rw [List.length_append, List.length_singleton, List.append_assoc] at this
      have e : done ++ (List.map Seg.split (s :: ss) ++ rest) = done ++ ([s.split] ++ (List.map Seg.split ss ++ rest)) := rfl
      rw [e]
      simp only
      rw [this]
      rfl

theorem ctFormat_any (F : Formatter κ) {last : List Char} (hl : TextOK last) {segs : List Seg} (hs : ∀ s ∈ segs, s.WF)
    {args : List (Arg κ ρ)} (h : segs.length = args.length) :
    ctFormat F (render segs last) args = resAny F last segs args := by
  unfold ctFormat
  rw [countSpecifiers_render hs hl, Outcome.ok_bind, splitSpecifiers_render hs hl, Outcome.ok_bind]
  have hg : arrGet (segs.map Seg.split ++ [⟨last, last.length⟩]) segs.length = .ok ⟨last, last.length⟩ := by
    rw [arrGet_ok, List.getElem?_append_right (by simp)]; simp
  rw [hg, Outcome.ok_bind, if_neg (by simp [h])]
  exact foldArgs_any F last hs h [] _

/-! ## fmtlib and escaped braces -/

/-- A text and what fmtlib prints for it: `{{` and `}}` stand for one brace. -/
inductive Unescapes : List Char → List Char → Prop
  | nil : Unescapes [] []
  | plain {c t u} : c ≠ '{' → c ≠ '}' → Unescapes t u → Unescapes (c :: t) (c :: u)
  | opn {t u} : Unescapes t u → Unescapes ('{' :: '{' :: t) ('{' :: u)
  | cls {t u} : Unescapes t u → Unescapes ('}' :: '}' :: t) ('}' :: u)

/-- The contract of fmtlib for a format string with one field and texts with escaped braces. -/
structure FormatsEsc (F : Formatter κ) (Tv : List Char → κ → Option (List Char))
    (Ts : List Char → List Char → Option (List Char)) : Prop where
  val : ∀ text u tail v, Unescapes text u → Plain tail → (tail = [] ∨ tail.head? = some ':') →
    F.val (text ++ '{' :: (tail ++ ['}'])) v = (Tv tail v).map (u ++ ·)
  str : ∀ text u tail x, Unescapes text u → Plain tail → (tail = [] ∨ tail.head? = some ':') →
    F.str (text ++ '{' :: (tail ++ ['}'])) x = (Ts tail x).map (u ++ ·)

theorem unescapes_plain {t : List Char} (h : Plain t) : Unescapes t t := by
  induction t with
  | nil => exact .nil
  | cons c t ih =>
    unfold Plain at h
    simp only [List.mem_cons, not_or] at h
    exact .plain (fun e => h.1.1 e.symm) (fun e => h.2.1 e.symm) (ih ⟨h.1.2, h.2.2⟩)

/-- The contract with escapes includes the contract without. -/
theorem FormatsEsc.formats {F : Formatter κ} {Tv : List Char → κ → Option (List Char)}
    {Ts : List Char → List Char → Option (List Char)} (h : FormatsEsc F Tv Ts) : Formats F Tv Ts where
  val := fun _ _ v ht hp hs => h.val _ _ _ v (unescapes_plain ht) hp hs
  str := fun _ _ _ ht hp hs => h.str _ _ _ _ (unescapes_plain ht) hp hs

theorem Unescapes.textOK {t u : List Char} (h : Unescapes t u) : TextOK t := by
  induction h with
  | nil => exact .nil
  | plain h _ _ ih => exact .plain h ih
  | opn _ ih => exact .esc ih
  | cls _ ih => exact .plain (by decide) (.plain (by decide) ih)

variable {Tv : List Char → κ → Option (List Char)} {Ts : List Char → List Char → Option (List Char)}

/-- What becomes of a segment's text and field when fmtlib sees the text before compile-time arguments. -/
def pieceEsc (Tv : List Char → κ → Option (List Char)) (Ts : List Char → List Char → Option (List Char)) (s : Seg)
    (u : List Char) (a : Arg κ ρ) : Option (List Char) :=
  match a with
  | .rt _ => (fieldText Tv Ts s a).map (s.text ++ ·)
  | _ => (fieldText Tv Ts s a).map (u ++ ·)

/-- The string of a call: texts before compile-time arguments are unescaped, the others are not. -/
inductive StrEsc (Tv : List Char → κ → Option (List Char)) (Ts : List Char → List Char → Option (List Char)) (last : List Char) :
    List Seg → List (Arg κ ρ) → List Char → Prop
  | nil : StrEsc Tv Ts last [] [] last
  | cons {s u a t ss as r} : s.WF → Unescapes s.text u → pieceEsc Tv Ts s u a = some t → StrEsc Tv Ts last ss as r →
      StrEsc Tv Ts last (s :: ss) (a :: as) (t ++ r)

/-- **C56 with fmtlib.** The exact string for texts with escaped braces: those before a compile-time argument are
unescaped, those before a runtime argument and in the last text stay escaped. -/
theorem C56_ct_format_escapes {F : Formatter κ} (hF : FormatsEsc F Tv Ts) {last : List Char} (hl : TextOK last) {segs : List Seg}
    {args : List (Arg κ ρ)} {str : List Char} (h : StrEsc Tv Ts last segs args str) :
    ∃ r, ctFormat F (render segs last) args = .ok r ∧ r.str = str ∧ r.args = args.flatMap Arg.runtime := by
  have hw : (∀ s ∈ segs, s.WF) ∧ segs.length = args.length := by
    induction h with
    | nil => simp
    | @cons s u a t ss as r hs _ _ _ ih =>
      refine ⟨fun x hx => ?_, by simp [ih.2]⟩
      rcases List.mem_cons.mp hx with rfl | hx
      exacts [hs, ih.1 x hx]
  rw [ctFormat_any F hl hw.1 hw.2]
  clear hw
  induction h with
  | nil => exact ⟨_, rfl, rfl, rfl⟩
  | @cons s u a t ss as r hs hu hp _ ih =>
    obtain ⟨y, e, h1, h2⟩ := ih
    have hx : ∃ x, pieceAny F s a = .ok x ∧ x.str = t ∧ x.args = a.runtime := by
      unfold pieceAny format1
      unfold pieceEsc fieldText at hp
      cases a with
      | ct v =>
        simp only at hp ⊢
        rw [hF.val _ _ _ v hu hs.tail_plain s.tail_shape, hp]
        simp only
        split <;> exact ⟨_, rfl, rfl, rfl⟩
      | rt r =>
        simp only [Option.map_some, Option.some.injEq] at hp ⊢
        split <;> exact ⟨_, rfl, hp, rfl⟩
      | tup rs => simp at hp
      | res r =>
        simp only at hp ⊢
        rw [hF.str _ _ _ _ hu hs.tail_plain s.tail_shape, hp]
        exact ⟨_, rfl, rfl, rfl⟩
    obtain ⟨x, ex, hx1, hx2⟩ := hx
    refine ⟨x.add y, by rw [resAny, ex, Outcome.ok_bind, e]; rfl, ?_, ?_⟩
    · show x.str ++ y.str = _; rw [hx1, h1]
    · show x.args ++ y.args = _; rw [hx2, h2]; rfl

/-- **C56 fails with escaped braces.** With fmtlib, `{{w{}{}` formatted with a compile-time and a runtime argument gives
a string that, as a format string, has two fields although there is one runtime argument: the escaped brace
has become an opening one. -/
theorem C56_escapes_violated {F : Formatter κ} (hF : FormatsEsc F Tv Ts) {w : List Char} (hw : Plain w)
    {v : κ} {t : List Char} (hv : Tv [] v = some t) (ht : Plain t) (hne : w ++ t ≠ []) (x : ρ) :
    ∃ r, ctFormat F ('{' :: '{' :: (w ++ ['{', '}', '{', '}'])) [.ct v, .rt x] = .ok r ∧
      r.args = [x] ∧ countSpecifiers r.str = .ok 2 := by
  have hu : Unescapes ('{' :: '{' :: w) ('{' :: w) := .opn (unescapes_plain hw)
  have hw1 : (⟨'{' :: '{' :: w, [], none⟩ : Seg).WF :=
    ⟨hu.textOK, ⟨⟨by simp, by simp⟩, by simp⟩, fun _ h => by cases h⟩
  have hw2 : (⟨[], [], none⟩ : Seg).WF := ⟨.nil, ⟨⟨by simp, by simp⟩, by simp⟩, fun _ h => by cases h⟩
  obtain ⟨r, h1, h2, h3⟩ := C56_ct_format_escapes hF (last := []) .nil
    (segs := [⟨'{' :: '{' :: w, [], none⟩, ⟨[], [], none⟩]) (args := [.ct v, .rt x])
    (str := '{' :: w ++ t ++ (['{', '}'] ++ []))
    (.cons hw1 hu (by unfold pieceEsc fieldText; simp only [Seg.tail]; rw [hv]; rfl) (.cons hw2 .nil rfl .nil))
  refine ⟨r, ?_, h3, ?_⟩
  · rw [← h1]; congr 1; simp [render, Seg.chars, Seg.body, Seg.tail]
  · -- as a format string it is a field with a name that is not closed, and then a field
    rw [h2]
    obtain ⟨c, cs, hcs⟩ : ∃ c cs, w ++ t = c :: cs := by
      cases h : w ++ t with
      | nil => exact absurd h hne
      | cons c cs => exact ⟨c, cs, rfl⟩
    have hpl : Plain (c :: cs) := by rw [← hcs]; exact plain_append hw ht
    have hc0 : c ≠ '{' := fun e => hpl.1 (by simp [e])
    have e : '{' :: w ++ t ++ (['{', '}'] ++ []) = '{' :: (c :: cs ++ ['{', '}']) := by rw [← hcs]; simp
    rw [e]
    unfold countSpecifiers
    rw [findSpec_eq (l := '{' :: (c :: cs ++ ['{', '}'])) (by omega) (by simp), List.cons_append, fs_field hc0, Outcome.ok_bind]
    rw [show 0 + 0 = 0 from rfl, countLoop, if_neg (by simp)]
    rw [findSpec_eq (l := c :: (cs ++ ['{', '}'])) (by simp) (by simp), ← List.cons_append,
      fs_text (textOK_of_noopen hpl.1), fs_field (by decide), Outcome.ok_bind]
    simp only [List.length_cons, Nat.add_zero, Nat.zero_add, List.cons_append, List.length_append, List.length_nil]
    rw [countLoop, if_neg (by simp; omega)]
    rw [findSpec_eq (l := ['}']) (by simp; omega) (by rw [show 1 + (cs.length + 1) + 1 = (cs.length + 1 + 1) + 1 by omega]; simp), fs_ne (by decide), Outcome.ok_bind]
    rw [countLoop, if_pos (by simp [fs]; omega)]

/-- **C57 fails with escaped braces.** With fmtlib, formatting a text `x` into `{{{}` in two steps gives `{x`; in one step
(`{{x`) the brace stays escaped. -/
theorem C57_escapes_violated {F : Formatter κ} (hF : FormatsEsc F Tv Ts) (hT : ∀ x, Ts [] x = some x) {x : List Char} (hx : Plain x) :
    (∃ inner r, ctFormat F x ([] : List (Arg κ ρ)) = .ok inner ∧ ctFormat F ['{', '{', '{', '}'] [.res inner] = .ok r ∧ r.str = '{' :: x) ∧
    (∃ r, ctFormat F ('{' :: '{' :: x) ([] : List (Arg κ ρ)) = .ok r ∧ r.str = '{' :: '{' :: x) := by
  have hxo : TextOK x := textOK_of_noopen hx.1
  have hin : ctFormat F x ([] : List (Arg κ ρ)) = .ok (lit x) := by
    have := ctFormat_any (ρ := ρ) F hxo (segs := []) (args := []) (by simp) rfl
    simpa [render, resAny] using this
  have hu : Unescapes ['{', '{'] ['{'] := .opn .nil
  have hw1 : (⟨['{', '{'], [], none⟩ : Seg).WF := ⟨hu.textOK, ⟨⟨by simp, by simp⟩, by simp⟩, fun _ h => by cases h⟩
  constructor
  · obtain ⟨r, h1, h2, _⟩ := C56_ct_format_escapes hF (last := []) .nil (segs := [⟨['{', '{'], [], none⟩])
      (args := [.res (lit x : Result ρ)]) (str := '{' :: x ++ [])
      (.cons hw1 hu (by unfold pieceEsc fieldText; simp only [Seg.tail]; rw [hT]; rfl) .nil)
    exact ⟨_, r, hin, h1, by rw [h2]; simp⟩
  · have := ctFormat_any (ρ := ρ) F (TextOK.esc hxo) (segs := []) (args := []) (by simp) rfl
    exact ⟨_, by simpa [render, resAny] using this, rfl⟩

/-- **C57, names fail with escaped braces.** With fmtlib, a named compile-time argument after escaped braces gets a position that
is too far right; when its text is shorter than the number of escapes, it is reported as a runtime argument. -/
theorem C57_names_escapes_violated {F : Formatter κ} (hF : FormatsEsc F Tv Ts) {n : List Char} (hn : Plain n) (hc : ':' ∉ n)
    (hne : n ≠ []) {v : κ} {c : Char} (hv : Tv [] v = some [c]) :
    ∃ r : Result ρ, ctFormat F ('{' :: '{' :: '{' :: '{' :: '{' :: (n ++ ['}'])) [.ct v] = .ok r ∧ r.args = [] ∧
      r.named.map Named.isRuntime = [true] := by
  have hu : Unescapes ['{', '{', '{', '{'] ['{', '{'] := .opn (.opn .nil)
  have hw1 : (⟨['{', '{', '{', '{'], n, none⟩ : Seg).WF := ⟨hu.textOK, ⟨hn, hc⟩, fun _ h => by cases h⟩
  have h := ctFormat_any (ρ := ρ) F (last := []) .nil (segs := [⟨['{', '{', '{', '{'], n, none⟩]) (args := [.ct v])
    (by simp; exact hw1) rfl
  have hv' := hF.val _ _ [] v hu ⟨by simp, by simp⟩ (Or.inl rfl)
  rw [hv] at hv'
  have hp : pieceAny (ρ := ρ) F ⟨['{', '{', '{', '{'], n, none⟩ (.ct v) =
      .ok ⟨['{', '{', c], [], [⟨n, 4, 3⟩]⟩ := by
    unfold pieceAny format1
    simp only [Seg.tail]
    rw [hv']
    simp [hne]
  rw [resAny, hp] at h
  refine ⟨(⟨['{', '{', c], [], [⟨n, 4, 3⟩]⟩ : Result ρ).add (lit []), ?_, ?_, ?_⟩
  · rw [show '{' :: '{' :: '{' :: '{' :: '{' :: (n ++ ['}']) = render [⟨['{', '{', '{', '{'], n, none⟩] [] by
      simp [render, Seg.chars, Seg.body, Seg.tail]]
    exact h
  · rfl
  · rfl

/-! ### Non-vacuity -/

/-- A formatter with fmtlib's treatment of braces, for values that are texts and empty specifiers. -/
def escFormat : List Char → List Char → Option (List Char)
  | '{' :: '{' :: r, x => (escFormat r x).map ('{' :: ·)
  | '}' :: '}' :: r, x => (escFormat r x).map ('}' :: ·)
  | ['{', '}'], x => some x
  | '{' :: _, _ => none
  | '}' :: _, _ => none
  | c :: r, x => (escFormat r x).map (c :: ·)
  | [], _ => none

theorem escFormat_esc {text u : List Char} (h : Unescapes text u) {tail : List Char} (hs : tail = [] ∨ tail.head? = some ':') (x : List Char) :
    escFormat (text ++ '{' :: (tail ++ ['}'])) x = (if tail = [] then some x else none).map (u ++ ·) := by
  induction h with
  | nil =>
    rcases hs with rfl | hs
    · rfl
    · cases tail with
      | nil => cases hs
      | cons c r =>
        simp only [List.head?_cons, Option.some.injEq] at hs
        subst hs
        rfl
  | @plain c t u h1 h2 _ ih =>
    rw [List.cons_append, escFormat.eq_def]
    split
    · rename_i e; exact absurd (by injection e) h1
    · rename_i e; exact absurd (by injection e) h2
    · rename_i e; exact absurd (by injection e) h1
    · rename_i e; exact absurd (by injection e) h1
    · rename_i e; exact absurd (by injection e) h2
    · rename_i e
      injection e with e1 e2
      rw [← e1, ← e2, ih]
      split <;> simp
    · rename_i e; cases e
  | opn _ ih =>
    rw [List.cons_append, List.cons_append, escFormat, ih]
    split <;> simp
  | cls _ ih =>
    rw [List.cons_append, List.cons_append, escFormat, ih]
    split <;> simp

/-- The contract with escapes can be met. -/
theorem escFormat_contract : FormatsEsc (κ := List Char) ⟨escFormat, escFormat⟩ (fun tail v => if tail = [] then some v else none)
    (fun tail x => if tail = [] then some x else none) where
  val := fun _ _ _ v hu _ hs => escFormat_esc hu hs v
  str := fun _ _ _ x hu _ hs => escFormat_esc hu hs x

/-- A value for the examples. -/
def v42 : { v : Fmt.Val // Formattable v } := ⟨.num (.int 32 true) (-42), 32, true, rfl, by decide, by decide⟩

/-- `ct_format<"a{x}b{:x}c{}">(CX_VALUE(-42), 7, CX_VALUE(-42))` with the freestanding formatter. -/
example : Match (ρ := Nat) [⟨['a'], ['x'], none⟩, ⟨['b'], [], some ['x']⟩, ⟨['c'], [], none⟩] [.ct v42, .rt 7, .ct v42] ∧
    render [⟨['a'], ['x'], none⟩, ⟨['b'], [], some ['x']⟩, ⟨['c'], [], none⟩] [] = "a{x}b{:x}c{}".toList ∧
    expectStr (ρ := Nat) (fun tail v => textFor tail v.1) (fun tail x => textFor tail (.range x)) []
      [⟨['a'], ['x'], none⟩, ⟨['b'], [], some ['x']⟩, ⟨['c'], [], none⟩] [.ct v42, .rt 7, .ct v42] =
      some "a-42b{:x}c-42".toList := by
  refine ⟨.cons ⟨⟨textOK_of_noopen (by decide), ⟨⟨by decide, by decide⟩, by decide⟩, fun _ h => by cases h⟩, Or.inr ⟨by decide, by decide⟩⟩
    (.cons ⟨⟨textOK_of_noopen (by decide), ⟨⟨by decide, by decide⟩, by decide⟩, fun _ h => by cases h; exact ⟨by decide, by decide⟩⟩, Or.inl ⟨_, rfl⟩⟩
    (.cons ⟨⟨textOK_of_noopen (by decide), ⟨⟨by decide, by decide⟩, by decide⟩, fun _ h => by cases h⟩, Or.inr ⟨by decide, by decide⟩⟩ .nil)), by decide, by decide⟩

/-- A nested call, and the call it is equal to. -/
example : (Call.nest ['p'] ['q'] (.arg ⟨['a'], ['x'], none⟩ (.ct v42) (.arg ⟨['b'], [], none⟩ (.rt 7) (.last ['c'])))
      (.arg ⟨['d'], [], none⟩ (.rt 8) (.last ['e'])) : Call _ Nat).WF ∧
    render ((Call.nest ['p'] ['q'] (.arg ⟨['a'], ['x'], none⟩ (.ct v42) (.arg ⟨['b'], [], none⟩ (.rt 7) (.last ['c'])))
      (.arg ⟨['d'], [], none⟩ (.rt 8) (.last ['e'])) : Call _ Nat).flat []).1 ['e'] = "pa{x}b{}cd{}e".toList := by
  refine ⟨?_, by decide⟩
  have hp : ∀ c : Char, c ≠ '{' → c ≠ '}' → Plain [c] := fun c h1 h2 => ⟨by simp [h1.symm], by simp [h2.symm]⟩
  have hw : ∀ c n, c ≠ '{' → Plain n → ':' ∉ n → (⟨[c], n, none⟩ : Seg).WF := fun c n h1 h2 h3 =>
    ⟨textOK_of_noopen (by simp [h1.symm]), ⟨h2, h3⟩, fun _ h => by cases h⟩
  refine ⟨hp _ (by decide) (by decide), hp _ (by decide) (by decide), by decide, ⟨hw _ _ (by decide) (hp _ (by decide) (by decide)) (by decide),
    hp _ (by decide) (by decide), hw _ _ (by decide) ⟨by simp, by simp⟩ (by simp), hp _ (by decide) (by decide),
    hp _ (by decide) (by decide)⟩, hw _ _ (by decide) ⟨by simp, by simp⟩ (by simp), hp _ (by decide) (by decide),
    hp _ (by decide) (by decide)⟩

/-- The specifications of the named arguments and fields of a call. -/
example : CallMeans (ρ := Nat) (fun tail v => textFor tail v.1) [⟨['a'], ['x'], none⟩, ⟨['b'], ['y'], some ['x']⟩] [.ct v42, .rt 7]
      [(['x'], .text ['-', '4', '2']), (['y'], .arg 7)] ∧
    CallFields (ρ := Nat) (fun tail v => textFor tail v.1) [⟨['a'], ['x'], none⟩, ⟨['b'], ['y'], some ['x']⟩] [.ct v42, .rt 7]
      [[':', 'x']] :=
  ⟨.ct (by decide) (.rt .nil), .ct (t := ['-', '4', '2']) (by decide) (textOK_of_noopen (by decide)) (.rt .nil)⟩

end Verif.CtFormat
