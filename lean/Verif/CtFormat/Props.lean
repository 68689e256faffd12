import Verif.CtFormat.Lemmas
import Mathlib.Tactic.NormNum

/-! # `ct_format` (C56, C57, C79) -/

namespace Verif.CtFormat

variable {κ ρ : Type}

/-! ## Results form a monoid -/

theorem offset_offset (n : Named) (a b c d : Nat) : (n.offset a b).offset c d = n.offset (a + c) (b + d) := by
  unfold Named.offset
  by_cases h : n.isRuntime = true
  · rw [if_pos h, if_pos h]
    have : (⟨n.name, n.first + b, n.last + b⟩ : Named).isRuntime = true := by
      unfold Named.isRuntime at *; simp at *; omega
    rw [if_pos this]
    simp; omega
  · rw [if_neg h, if_neg h]
    have : ¬ (⟨n.name, n.first + a, n.last + a⟩ : Named).isRuntime = true := by
      unfold Named.isRuntime at *; simp at *; omega
    rw [if_neg this]
    simp; omega

theorem offset_zero (n : Named) : n.offset 0 0 = n := by
  unfold Named.offset; split <;> simp

theorem add_assoc' (a b c : Result ρ) : (a.add b).add c = a.add (b.add c) := by
  unfold Result.add
  simp only [List.append_assoc, List.map_append, List.map_map, List.length_append, Result.mk.injEq, true_and]
  congr 2
  apply List.map_congr_left
  intro n _
  simp only [Function.comp]
  rw [offset_offset, Nat.add_comm a.str.length, Nat.add_comm a.args.length]

/-- A literal text as a result. -/
def lit (t : List Char) : Result ρ := ⟨t, [], []⟩

theorem lit_nil_add (r : Result ρ) : (lit []).add r = r := by
  unfold lit Result.add
  simp only [List.nil_append, List.length_nil]
  have : r.named.map (Named.offset 0 0) = r.named := by
    conv_rhs => rw [← List.map_id r.named]
    congr 1; funext n; exact offset_zero n
  rw [this]

theorem lit_append (a b : List Char) : (lit (a ++ b) : Result ρ) = (lit a).add (lit b) := rfl

theorem lit_append_add (a b : List Char) (r : Result ρ) : (lit (a ++ b)).add r = (lit a).add ((lit b).add r) := by
  rw [lit_append, add_assoc']

/-! ## The exact result of a call -/

section Fixed
variable (Tv : List Char → κ → Option (List Char)) (Ts : List Char → List Char → Option (List Char))

/-- The result of one segment. -/
def pieceRes (s : Seg) (a : Arg κ ρ) : Option (Result ρ) :=
  match a with
  | .ct v => (Tv s.tail v).map fun t =>
      ⟨s.text ++ t, [], if s.name ≠ [] then [⟨s.name, s.text.length, (s.text ++ t).length⟩] else []⟩
  | .rt r => some ⟨s.text ++ '{' :: (s.tail ++ ['}']), [r], if s.name ≠ [] then [⟨s.name, 0, -1⟩] else []⟩
  | .tup rs => some ⟨s.text ++ '{' :: (s.tail ++ ['}']), rs, if s.name ≠ [] then [⟨s.name, 0, -1⟩] else []⟩
  | .res r => (Ts s.tail r.str).map fun t => ⟨s.text ++ t, r.args, r.named.map (Named.offset s.text.length 0)⟩

/-- The result of a call. -/
def expectRes (last : List Char) : List Seg → List (Arg κ ρ) → Option (Result ρ)
  | [], [] => some (lit last)
  | s :: ss, a :: as =>
    match pieceRes Tv Ts s a, expectRes last ss as with
    | some x, some y => some (x.add y)
    | _, _ => none
  | _, _ => none

/-- An optional value as an outcome of a compilation. -/
def compiled {α : Type} : Option α → Outcome α
  | some a => .ok a
  | none => .ub

variable {Tv Ts}

theorem format1_eq {F : Formatter κ} (hF : Formats F Tv Ts) {s : Seg} {a : Arg κ ρ} (h : SegFor s a) :
    format1 F (s.text ++ '{' :: (s.tail ++ ['}'])) s.name s.text.length a = compiled (pieceRes Tv Ts s a) := by
  obtain ⟨hw, ht⟩ := h
  cases a with
  | ct v =>
    have hp : Plain s.text := by
      rcases ht with ⟨r, hr⟩ | h
      · cases hr
      · exact h
    unfold format1 pieceRes
    simp only
    rw [hF.val _ _ _ hp hw.tail_plain s.tail_shape]
    cases Tv s.tail v with
    | none => rfl
    | some t =>
      simp only [Option.map_some, compiled]
      split <;> rfl
  | rt r =>
    unfold format1 pieceRes compiled
    simp only
    split <;> rfl
  | tup rs =>
    unfold format1 pieceRes compiled
    simp only
    split <;> rfl
  | res r =>
    have hp : Plain s.text := by
      rcases ht with ⟨r, hr⟩ | h
      · cases hr
      · exact h
    unfold format1 pieceRes
    simp only
    rw [hF.str _ _ _ hp hw.tail_plain s.tail_shape]
    cases Ts s.tail r.str with
    | none => rfl
    | some t => rfl

theorem foldArgs_eq {F : Formatter κ} (hF : Formats F Tv Ts) (last : List Char) {segs : List Seg} {args : List (Arg κ ρ)}
    (h : Match segs args) (done : List Split) (rest : List Split) :
    foldArgs F (done ++ (segs.map Seg.split ++ rest)) (lit last) done.length args = compiled (expectRes Tv Ts last segs args) := by
  induction h generalizing done with
  | nil => rfl
  | @cons s a ss as hsa _ ih =>
    rw [foldArgs]
    have hg : arrGet (done ++ ((s :: ss).map Seg.split ++ rest)) done.length = .ok s.split := by
      rw [arrGet_ok, List.getElem?_append_right (by omega)]; simp
    rw [hg, Outcome.ok_bind]
    have he : extract s.split.view s.split.start = .ok (s.text ++ '{' :: (s.tail ++ ['}']), s.name) := extract_seg hsa.1
    rw [he, Outcome.ok_bind]
    simp only
    have := ih (done ++ [s.split])
    rw [List.length_append, List.length_singleton, List.append_assoc] at this
    have e : done ++ (List.map Seg.split (s :: ss) ++ rest) = done ++ ([s.split] ++ (List.map Seg.split ss ++ rest)) := rfl
    rw [e, this]
    have hf := format1_eq hF hsa
    have hst : s.split.start = s.text.length := rfl
    rw [hst, hf]
    rw [expectRes]
    cases h1 : pieceRes Tv Ts s a with
    | none => rfl
    | some x =>
      cases h2 : expectRes Tv Ts last ss as with
      | none => rfl
      | some y => rfl

theorem Match.length {segs : List Seg} {args : List (Arg κ ρ)} (h : Match segs args) : segs.length = args.length := by
  induction h with
  | nil => rfl
  | cons _ _ ih => simp [ih]

theorem Match.wf {segs : List Seg} {args : List (Arg κ ρ)} (h : Match segs args) : ∀ s ∈ segs, s.WF := by
  induction h with
  | nil => simp
  | cons h _ ih => intro x hx; rcases List.mem_cons.mp hx with rfl | hx; exacts [h.1, ih x hx]

theorem ctFormat_eq {F : Formatter κ} (hF : Formats F Tv Ts) {last : List Char} (hl : TextOK last) {segs : List Seg}
    {args : List (Arg κ ρ)} (h : Match segs args) :
    ctFormat F (render segs last) args = compiled (expectRes Tv Ts last segs args) := by
  unfold ctFormat
  rw [countSpecifiers_render h.wf hl, Outcome.ok_bind, splitSpecifiers_render h.wf hl, Outcome.ok_bind]
  have hg : arrGet (segs.map Seg.split ++ [⟨last, last.length⟩]) segs.length = .ok ⟨last, last.length⟩ := by
    rw [arrGet_ok, List.getElem?_append_right (by simp)]; simp
  rw [hg, Outcome.ok_bind, if_neg (by simp [h.length])]
  exact foldArgs_eq hF last h [] _

/-! ## C56 -/

/-- **C56.** For a format string made of texts and fields and one argument per field: if every compile-time
argument can be formatted, the result's string is the format string with each compile-time argument's text
in place of its field and each runtime argument's field kept (its name dropped), and its arguments are the
runtime arguments in order.  If some argument cannot be formatted, the call does not compile.  Missing: runtime
arguments that are `stdx::tuple`s (`C56_tuple_argument_violated`) and escaped braces. -/
theorem C56_ct_format_partial {F : Formatter κ} (hF : Formats F Tv Ts) {last : List Char} (hl : TextOK last) {segs : List Seg}
    {args : List (Arg κ ρ)} (h : Match segs args) (hn : NoTuples args) :
    (∀ str, expectStr Tv Ts last segs args = some str →
      ∃ r, ctFormat F (render segs last) args = .ok r ∧ r.str = str ∧ r.args = args.flatMap Arg.runtime) ∧
    (expectStr Tv Ts last segs args = none → ctFormat F (render segs last) args = .ub) := by
  rw [ctFormat_eq hF hl h]
  have key : ∀ {segs : List Seg} {args : List (Arg κ ρ)}, Match segs args → NoTuples args →
      (expectRes Tv Ts last segs args).map (fun r => (r.str, r.args)) =
        (expectStr Tv Ts last segs args).map (fun s => (s, args.flatMap Arg.runtime)) := by
    intro segs args h hn
    induction h with
    | nil => rfl
    | @cons s a ss as _ _ ih =>
      replace ih := ih (fun x hx => hn x (List.mem_cons_of_mem _ hx))
      rw [expectRes, expectStr]
      have e : (pieceRes Tv Ts s a).map (fun r => (r.str, r.args)) =
          (fieldText Tv Ts s a).map (fun t => (s.text ++ t, a.runtime)) := by
        cases a with
        | ct v => unfold pieceRes fieldText; simp only; cases Tv s.tail v <;> rfl
        | rt r => rfl
        | tup rs => exact absurd rfl (hn _ (by simp) rs)
        | res r => unfold pieceRes fieldText; simp only; cases Ts s.tail r.str <;> rfl
      cases h1 : pieceRes Tv Ts s a with
      | none =>
        rw [h1] at e
        cases h2 : fieldText Tv Ts s a with
        | none => rfl
        | some t => rw [h2] at e; cases e
      | some x =>
        rw [h1] at e
        cases h2 : fieldText Tv Ts s a with
        | none => rw [h2] at e; cases e
        | some t =>
          rw [h2] at e
          simp only [Option.map_some, Option.some.injEq, Prod.mk.injEq] at e
          cases h3 : expectRes Tv Ts last ss as with
          | none =>
            rw [h3] at ih
            cases h4 : expectStr Tv Ts last ss as with
            | none => rfl
            | some y => rw [h4] at ih; cases ih
          | some y =>
            rw [h3] at ih
            cases h4 : expectStr Tv Ts last ss as with
            | none => rw [h4] at ih; cases ih
            | some z =>
              rw [h4] at ih
              simp only [Option.map_some, Option.some.injEq, Prod.mk.injEq] at ih
              simp [Result.add, e, ih]
  have k := key h hn
  refine ⟨fun str hs => ?_, fun hn => ?_⟩
  · rw [hs] at k
    cases h3 : expectRes Tv Ts last segs args with
    | none => rw [h3] at k; cases k
    | some r =>
      rw [h3] at k
      simp only [Option.map_some, Option.some.injEq, Prod.mk.injEq] at k
      exact ⟨r, rfl, k.1, k.2⟩
  · rw [hn] at k
    cases h3 : expectRes Tv Ts last segs args with
    | none => rfl
    | some r => rw [h3] at k; cases k

/-- **C56, arity.** A number of arguments other than the number of fields does not compile; the number of fields
is what `num_fmt_specifiers` reports. -/
theorem C56_ct_format_arity (F : Formatter κ) {last : List Char} (hl : TextOK last) {segs : List Seg} (hs : ∀ s ∈ segs, s.WF)
    (args : List (Arg κ ρ)) :
    countSpecifiers (render segs last) = .ok segs.length ∧
    (segs.length ≠ args.length → ctFormat F (render segs last) args = .ub) := by
  refine ⟨countSpecifiers_render hs hl, fun hne => ?_⟩
  unfold ctFormat
  rw [countSpecifiers_render hs hl, Outcome.ok_bind, splitSpecifiers_render hs hl, Outcome.ok_bind]
  have hg : arrGet (segs.map Seg.split ++ [⟨last, last.length⟩]) segs.length = .ok ⟨last, last.length⟩ := by
    rw [arrGet_ok, List.getElem?_append_right (by simp)]; simp
  rw [hg, Outcome.ok_bind, if_pos hne]

/-! ## Named arguments -/

theorem means_left {a b : Result ρ} {n : Named} {m : List Char × Meaning ρ} (h : Means a n m) : Means (a.add b) n m := by
  obtain ⟨h0, h⟩ := h
  refine ⟨h0, ?_⟩
  obtain ⟨nm, m⟩ := m
  cases m with
  | text t =>
    obtain ⟨h1, k, h2, h3, h4, h5⟩ := h
    refine ⟨h1, k, h2, h3, by simp [Result.add]; omega, ?_⟩
    unfold slice at *
    show ((a.str ++ b.str).drop k).take _ = t
    rw [List.drop_append_of_le_length (by omega), List.take_append_of_le_length (by rw [List.length_drop]; omega), h5]
  | arg r =>
    obtain ⟨h1, k, h2, h3⟩ := h
    refine ⟨h1, k, h2, ?_⟩
    show (a.args ++ b.args)[k]? = _
    rw [List.getElem?_append_left (List.getElem?_eq_some_iff.mp h3).1, h3]

theorem means_right {a b : Result ρ} {n : Named} {m : List Char × Meaning ρ} (h : Means b n m) :
    Means (a.add b) (n.offset a.str.length a.args.length) m := by
  obtain ⟨h0, h⟩ := h
  obtain ⟨nm, m⟩ := m
  cases m with
  | text t =>
    obtain ⟨h1, k, h2, h3, h4, h5⟩ := h
    have e : n.offset a.str.length a.args.length = ⟨n.name, n.first + a.str.length, n.last + a.str.length⟩ := by
      unfold Named.offset; rw [if_neg (by rw [h1]; simp)]
    rw [e]
    refine ⟨h0, ?_, a.str.length + k, by simp only; omega, by simp only; push_cast; omega, by simp [Result.add]; omega, ?_⟩
    · unfold Named.isRuntime at *; simp at *; omega
    · unfold slice at *
      show ((a.str ++ b.str).drop (a.str.length + k)).take _ = t
      rw [← List.drop_drop, List.drop_left, show a.str.length + k + t.length - (a.str.length + k) = k + t.length - k by omega, h5]
  | arg r =>
    obtain ⟨h1, k, h2, h3⟩ := h
    have e : n.offset a.str.length a.args.length = ⟨n.name, n.first + a.args.length, n.last + a.args.length⟩ := by
      unfold Named.offset; rw [if_pos h1]
    rw [e]
    refine ⟨h0, ?_, a.args.length + k, by simp only; push_cast; omega, ?_⟩
    · unfold Named.isRuntime at *; simp at *; omega
    · show (a.args ++ b.args)[a.args.length + k]? = _
      rw [List.getElem?_append_right (by omega), Nat.add_sub_cancel_left, h3]

theorem namedMeans_add {a b : Result ρ} {ms ns : List (List Char × Meaning ρ)} (ha : NamedMeans a ms) (hb : NamedMeans b ns) :
    NamedMeans (a.add b) (ms ++ ns) := by
  unfold NamedMeans at *
  show List.Forall₂ _ (a.named ++ b.named.map _) (ms ++ ns)
  apply List.rel_append
  · exact ha.imp fun _ _ => means_left
  · rw [List.forall₂_map_left_iff]
    exact hb.imp fun _ _ => means_right

theorem namedMeans_lit (t : List Char) : NamedMeans (lit t : Result ρ) [] := List.Forall₂.nil

/-- What the names of a call's segments mean, given what the names in nested results mean. -/
inductive CallMeans (Tv : List Char → κ → Option (List Char)) : List Seg → List (Arg κ ρ) → List (List Char × Meaning ρ) → Prop
  | nil : CallMeans Tv [] [] []
  | ct {s v t ss as ms} : Tv s.tail v = some t → CallMeans Tv ss as ms →
      CallMeans Tv (s :: ss) (.ct v :: as) ((if s.name = [] then [] else [(s.name, .text t)]) ++ ms)
  | rt {s r ss as ms} : CallMeans Tv ss as ms →
      CallMeans Tv (s :: ss) (.rt r :: as) ((if s.name = [] then [] else [(s.name, .arg r)]) ++ ms)
  | res {s r ns ss as ms} : s.spec = none → NamedMeans r ns → CallMeans Tv ss as ms →
      CallMeans Tv (s :: ss) (.res r :: as) (ns ++ ms)

theorem pieceRes_res (hT : ∀ x, Ts [] x = some x) {s : Seg} (hs : s.spec = none) (r : Result ρ) :
    pieceRes Tv Ts s (.res r) = some ((lit s.text).add r) := by
  have ht : s.tail = [] := by unfold Seg.tail; rw [hs]
  unfold pieceRes
  simp only
  rw [ht, hT]
  rfl

theorem pieceRes_ct {s : Seg} {v : κ} {t : List Char} (h : Tv s.tail v = some t) :
    pieceRes Tv Ts s (.ct v : Arg κ ρ) =
      some ⟨s.text ++ t, [], if s.name ≠ [] then [⟨s.name, s.text.length, (s.text ++ t).length⟩] else []⟩ := by
  unfold pieceRes
  simp only
  rw [h]
  rfl

/-- **C57, named arguments.** In the result of a call, the named arguments are, in order, those of its
segments and of the nested results: a compile-time one gives the range of its text in the string, a runtime
one its index in the arguments. -/
theorem C57_named_arguments_partial {F : Formatter κ} (hF : Formats F Tv Ts) (hT : ∀ x, Ts [] x = some x) {last : List Char}
    (hl : TextOK last) {segs : List Seg} {args : List (Arg κ ρ)} (h : Match segs args) {ms : List (List Char × Meaning ρ)}
    (hm : CallMeans Tv segs args ms) :
    ∃ r, ctFormat F (render segs last) args = .ok r ∧ NamedMeans r ms := by
  rw [ctFormat_eq hF hl h]
  suffices ∃ r, expectRes Tv Ts last segs args = some r ∧ NamedMeans r ms by
    obtain ⟨r, e, hr⟩ := this
    exact ⟨r, by rw [e]; rfl, hr⟩
  clear h
  induction hm with
  | nil => exact ⟨_, rfl, namedMeans_lit _⟩
  | @ct s v t ss as ms ht _ ih =>
    obtain ⟨y, e, hy⟩ := ih
    refine ⟨_, by rw [expectRes, e, pieceRes_ct ht], namedMeans_add ?_ hy⟩
    by_cases hn : s.name = []
    · simp only [hn, ne_eq, not_true_eq_false, if_false, if_true]; exact List.Forall₂.nil
    · simp only [hn, ne_eq, not_false_eq_true, if_false, if_true]
      refine List.Forall₂.cons ⟨rfl, ?_, s.text.length, rfl, by simp, by simp, ?_⟩ List.Forall₂.nil
      · unfold Named.isRuntime; simp
      · have := slice_mid s.text t []
        rwa [List.append_nil] at this
  | @rt s r ss as ms _ ih =>
    obtain ⟨y, e, hy⟩ := ih
    refine ⟨_, by rw [expectRes, e]; rfl, namedMeans_add ?_ hy⟩
    by_cases hn : s.name = []
    · simp only [hn, ne_eq, not_true_eq_false, if_false, if_true]; exact List.Forall₂.nil
    · simp only [hn, ne_eq, not_false_eq_true, if_false, if_true]
      exact List.Forall₂.cons ⟨rfl, rfl, 0, rfl, rfl⟩ List.Forall₂.nil
  | @res s r ns ss as ms hs hr _ ih =>
    obtain ⟨y, e, hy⟩ := ih
    refine ⟨_, by rw [expectRes, pieceRes_res hT hs, e], ?_⟩
    have := namedMeans_add (namedMeans_add (namedMeans_lit s.text) hr) hy
    simpa using this

/-! ## C57 -/

/-- The value of a call: the concatenation of its pieces. -/
def sem : Call κ ρ → Option (Result ρ)
  | .last t => some (lit t)
  | .arg s a rest =>
    match pieceRes Tv Ts s a, sem rest with
    | some x, some y => some (x.add y)
    | _, _ => none
  | .nest t _ inner rest =>
    match sem inner, sem rest with
    | some x, some y => some (((lit t).add x).add y)
    | _, _ => none

theorem final_ok {c : Call κ ρ} (h : c.WF) : TextOK c.final := by
  induction c with
  | last t => exact textOK_of_noopen h.1
  | arg s a rest ih => exact ih h.2.2
  | nest t n inner rest _ ih => exact ih h.2.2.2.2

theorem nestSeg_wf {t n : List Char} (ht : Plain t) (hn : Plain n) (hc : ':' ∉ n) : (⟨t, n, none⟩ : Seg).WF :=
  ⟨textOK_of_noopen ht.1, ⟨hn, hc⟩, fun _ h => by cases h⟩

theorem evalArgs_eq {F : Formatter κ} (hF : Formats F Tv Ts) (hT : ∀ x, Ts [] x = some x) (c : Call κ ρ) (h : c.WF) :
    (∃ as, c.evalArgs F = .ok as ∧ Match c.segs as ∧ expectRes Tv Ts c.final c.segs as = sem (Tv := Tv) (Ts := Ts) c) ∨
    (c.evalArgs F = .ub ∧ sem (Tv := Tv) (Ts := Ts) c = none) := by
  induction c with
  | last t => exact Or.inl ⟨[], rfl, .nil, rfl⟩
  | arg s a rest ih =>
    obtain ⟨h1, h2, h3⟩ := h
    rcases ih h3 with ⟨as, e, hm, hs⟩ | ⟨e, hs⟩
    · refine Or.inl ⟨a :: as, by rw [Call.evalArgs, e]; rfl, .cons ⟨h1, Or.inr h2⟩ hm, ?_⟩
      rw [Call.segs, Call.final, expectRes, sem, hs]
    · refine Or.inr ⟨by rw [Call.evalArgs, e]; rfl, ?_⟩
      rw [sem, hs]
      cases pieceRes Tv Ts s a <;> rfl
  | nest t n inner rest ihi ihr =>
    obtain ⟨h1, h2, h3, h4, h5⟩ := h
    rcases ihi h4 with ⟨is, ei, hmi, hsi⟩ | ⟨ei, hsi⟩
    · have hf := ctFormat_eq hF (final_ok h4) hmi
      rw [hsi] at hf
      cases hv : sem (Tv := Tv) (Ts := Ts) inner with
      | none =>
        rw [hv] at hf
        exact Or.inr ⟨by rw [Call.evalArgs, ei, Outcome.ok_bind, hf]; rfl, by rw [sem, hv]⟩
      | some r =>
        rw [hv] at hf
        rcases ihr h5 with ⟨as, e, hm, hs⟩ | ⟨e, hs⟩
        · refine Or.inl ⟨.res r :: as, by rw [Call.evalArgs, ei, Outcome.ok_bind, hf]; simp only [compiled]; rw [Outcome.ok_bind, e]; rfl,
            .cons ⟨nestSeg_wf h1 h2 h3, Or.inr h1⟩ hm, ?_⟩
          rw [Call.segs, Call.final, expectRes, pieceRes_res hT rfl, sem, hs, hv]
          cases sem (Tv := Tv) (Ts := Ts) rest <;> rfl
        · refine Or.inr ⟨by rw [Call.evalArgs, ei, Outcome.ok_bind, hf]; simp only [compiled]; rw [Outcome.ok_bind, e]; rfl, ?_⟩
          rw [sem, hs, hv]
    · exact Or.inr ⟨by rw [Call.evalArgs, ei]; rfl, by rw [sem, hsi]⟩

theorem eval_eq {F : Formatter κ} (hF : Formats F Tv Ts) (hT : ∀ x, Ts [] x = some x) (c : Call κ ρ) (h : c.WF) :
    c.eval F = compiled (sem (Tv := Tv) (Ts := Ts) c) := by
  unfold Call.eval
  rcases evalArgs_eq hF hT c h with ⟨as, e, hm, hs⟩ | ⟨e, hs⟩
  · rw [e, Outcome.ok_bind, ctFormat_eq hF (final_ok h) hm, hs]
  · rw [e, hs]; rfl

theorem add_lit_nil (r : Result ρ) : r.add (lit []) = r := by
  unfold lit Result.add; simp

theorem expectRes_last {segs : List Seg} {args : List (Arg κ ρ)} (h : Match segs args) (last : List Char) :
    expectRes Tv Ts last segs args = (expectRes Tv Ts [] segs args).map (·.add (lit last)) := by
  induction h with
  | nil => rfl
  | @cons s a ss as _ _ ih =>
    rw [expectRes, expectRes, ih]
    cases pieceRes Tv Ts s a with
    | none => rfl
    | some x =>
      cases expectRes Tv Ts [] ss as with
      | none => rfl
      | some y => simp only [Option.map_some]; rw [add_assoc']

theorem expectRes_append {s1 : List Seg} {a1 : List (Arg κ ρ)} (h : Match s1 a1) (last : List Char) (s2 : List Seg)
    (a2 : List (Arg κ ρ)) :
    expectRes Tv Ts last (s1 ++ s2) (a1 ++ a2) =
      match expectRes Tv Ts [] s1 a1, expectRes Tv Ts last s2 a2 with
      | some x, some y => some (x.add y)
      | _, _ => none := by
  induction h with
  | nil =>
    simp only [List.nil_append, expectRes]
    cases expectRes Tv Ts last s2 a2 with
    | none => rfl
    | some y => simp only; rw [lit_nil_add]
  | @cons s a ss as _ _ ih =>
    rw [List.cons_append, List.cons_append, expectRes, ih, expectRes]
    cases pieceRes Tv Ts s a with
    | none => rfl
    | some x =>
      cases expectRes Tv Ts [] ss as with
      | none => rfl
      | some y =>
        cases expectRes Tv Ts last s2 a2 with
        | none => rfl
        | some z => simp only; rw [add_assoc']

theorem Match.append {s1 s2 : List Seg} {a1 a2 : List (Arg κ ρ)} (h1 : Match s1 a1) (h2 : Match s2 a2) :
    Match (s1 ++ s2) (a1 ++ a2) := by
  induction h1 with
  | nil => exact h2
  | cons h _ ih => exact .cons h ih

theorem pieceRes_prefix (acc : List Char) (s : Seg) (a : Arg κ ρ) :
    pieceRes Tv Ts ⟨acc ++ s.text, s.name, s.spec⟩ a = (pieceRes Tv Ts s a).map ((lit acc).add ·) := by
  have ht : (⟨acc ++ s.text, s.name, s.spec⟩ : Seg).tail = s.tail := rfl
  cases a with
  | ct v =>
    unfold pieceRes
    simp only
    rw [ht]
    cases Tv s.tail v with
    | none => rfl
    | some t =>
      simp only [Option.map_some]
      unfold Result.add lit
      by_cases hn : s.name = []
      · simp [hn]
      · simp only [hn, ne_eq, not_false_eq_true, if_true, List.nil_append, List.map_cons, List.map_nil, List.append_assoc,
          List.length_nil]
        have : (⟨s.name, s.text.length, (s.text ++ t).length⟩ : Named).offset acc.length 0 =
            ⟨s.name, (acc ++ s.text).length, (acc ++ (s.text ++ t)).length⟩ := by
          unfold Named.offset Named.isRuntime
          rw [if_neg (by simp)]
          simp; omega
        rw [this]
  | rt r =>
    unfold pieceRes
    simp only
    rw [ht]
    unfold Result.add lit
    by_cases hn : s.name = []
    · simp [hn]
    · simp only [hn, ne_eq, not_false_eq_true, if_true, List.nil_append, List.map_cons, List.map_nil, List.append_assoc,
          List.length_nil, Option.map_some]
      have : (⟨s.name, 0, -1⟩ : Named).offset acc.length 0 = ⟨s.name, 0, -1⟩ := by
        unfold Named.offset Named.isRuntime
        rw [if_pos (by simp)]; simp
      rw [this]
  | tup rs =>
    unfold pieceRes
    simp only
    rw [ht]
    unfold Result.add lit
    by_cases hn : s.name = []
    · simp [hn]
    · simp only [hn, ne_eq, not_false_eq_true, if_true, List.nil_append, List.map_cons, List.map_nil, List.append_assoc,
          List.length_nil, Option.map_some]
      have : (⟨s.name, 0, -1⟩ : Named).offset acc.length 0 = ⟨s.name, 0, -1⟩ := by
        unfold Named.offset Named.isRuntime
        rw [if_pos (by simp)]; simp
      rw [this]
  | res r =>
    unfold pieceRes
    simp only
    rw [ht]
    cases Ts s.tail r.str with
    | none => rfl
    | some t =>
      simp only [Option.map_some]
      unfold Result.add lit
      simp only [List.nil_append, List.append_assoc, List.map_map, List.length_nil]
      congr 3
      funext n
      simp only [Function.comp]
      rw [offset_offset, List.length_append, Nat.add_comm]

theorem plain_append {a b : List Char} (ha : Plain a) (hb : Plain b) : Plain (a ++ b) := by
  unfold Plain at *; simp [ha, hb]

theorem flat_eq (c : Call κ ρ) (h : c.WF) (acc : List Char) (ha : Plain acc) :
    Match (c.flat acc).1 (c.flat acc).2.1 ∧ Plain (c.flat acc).2.2 ∧
    expectRes Tv Ts (c.flat acc).2.2 (c.flat acc).1 (c.flat acc).2.1 =
      (sem (Tv := Tv) (Ts := Ts) c).map ((lit acc).add ·) := by
  induction c generalizing acc with
  | last t => exact ⟨.nil, plain_append ha h, rfl⟩
  | arg s a rest ih =>
    obtain ⟨h1, h2, h3⟩ := h
    obtain ⟨m, p, e⟩ := ih h3 [] ⟨by simp, by simp⟩
    refine ⟨.cons ⟨⟨textOK_of_noopen (plain_append ha h2).1, h1.name, h1.spec⟩, Or.inr (plain_append ha h2)⟩ m, p, ?_⟩
    simp only [Call.flat]
    rw [expectRes, pieceRes_prefix, e, sem]
    cases pieceRes Tv Ts s a with
    | none => rfl
    | some x =>
      cases sem (Tv := Tv) (Ts := Ts) rest with
      | none => rfl
      | some y => simp only [Option.map_some]; rw [lit_nil_add, add_assoc']
  | nest t n inner rest ihi ihr =>
    obtain ⟨h1, h2, h3, h4, h5⟩ := h
    obtain ⟨mi, pi, ei⟩ := ihi h4 (acc ++ t) (plain_append ha h1)
    obtain ⟨mr, pr, er⟩ := ihr h5 _ pi
    refine ⟨mi.append mr, pr, ?_⟩
    simp only [Call.flat]
    rw [expectRes_append mi, er, sem]
    rw [expectRes_last mi] at ei
    cases hp : expectRes Tv Ts [] (inner.flat (acc ++ t)).1 (inner.flat (acc ++ t)).2.1 with
    | none =>
      rw [hp] at ei
      cases hs : sem (Tv := Tv) (Ts := Ts) inner with
      | none => rfl
      | some x => rw [hs] at ei; cases ei
    | some x =>
      rw [hp] at ei
      cases hs : sem (Tv := Tv) (Ts := Ts) inner with
      | none => rw [hs] at ei; cases ei
      | some x' =>
        rw [hs] at ei
        simp only [Option.map_some, Option.some.injEq] at ei
        cases sem (Tv := Tv) (Ts := Ts) rest with
        | none => rfl
        | some y =>
          simp only [Option.map_some]
          rw [← add_assoc', ei, lit_append, add_assoc', add_assoc', add_assoc']

/-- **C57.** Formatting in steps equals formatting in one: a call whose arguments are results of other calls,
nested to any depth, gives exactly the string, the runtime arguments and the named arguments of the single
call whose format string and arguments have the inner ones spliced in (or neither compiles). -/
theorem C57_nested_format_partial {F : Formatter κ} (hF : Formats F Tv Ts) (hT : ∀ x, Ts [] x = some x) (c : Call κ ρ) (h : c.WF) :
    c.eval F = ctFormat F (render (c.flat []).1 (c.flat []).2.2) (c.flat []).2.1 := by
  obtain ⟨m, p, e⟩ := flat_eq (Tv := Tv) (Ts := Ts) c h [] ⟨by simp, by simp⟩
  rw [eval_eq hF hT c h, ctFormat_eq hF (textOK_of_noopen p.1) m, e]
  cases sem (Tv := Tv) (Ts := Ts) c with
  | none => rfl
  | some r => simp only [Option.map_some]; rw [lit_nil_add]

/-! ## C79: the result is a format string for its arguments -/

/-- The string of the result is a format string with unnamed fields that have the given specifiers, one per
runtime argument. -/
def FieldsAre (r : Result ρ) (tails : List (List Char)) : Prop :=
  ∃ segs last, r.str = render segs last ∧ (∀ s ∈ segs, s.WF ∧ s.name = []) ∧ TextOK last ∧ segs.map Seg.tail = tails ∧
    segs.length = r.args.length

/-- The specifiers of the runtime fields of a call; `none` for texts with braces in compile-time values. -/
inductive CallFields (Tv : List Char → κ → Option (List Char)) : List Seg → List (Arg κ ρ) → List (List Char) → Prop
  | nil : CallFields Tv [] [] []
  | ct {s v t ss as ts} : Tv s.tail v = some t → TextOK t → CallFields Tv ss as ts → CallFields Tv (s :: ss) (.ct v :: as) ts
  | rt {s r ss as ts} : CallFields Tv ss as ts → CallFields Tv (s :: ss) (.rt r :: as) (s.tail :: ts)
  | res {s r us ss as ts} : s.spec = none → FieldsAre r us → CallFields Tv ss as ts →
      CallFields Tv (s :: ss) (.res r :: as) (us ++ ts)

theorem fieldsAre_lit {t : List Char} (h : TextOK t) : FieldsAre (lit t : Result ρ) [] :=
  ⟨[], t, by simp [render, lit], by simp, h, rfl, rfl⟩

theorem fieldsAre_add {a b : Result ρ} {ts us : List (List Char)} (ha : FieldsAre a ts) (hb : FieldsAre b us) :
    FieldsAre (a.add b) (ts ++ us) := by
  obtain ⟨s1, l1, e1, w1, o1, t1, n1⟩ := ha
  obtain ⟨s2, l2, e2, w2, o2, t2, n2⟩ := hb
  cases s2 with
  | nil =>
    refine ⟨s1, l1 ++ l2, ?_, w1, o1.append o2, ?_, ?_⟩
    · simp [Result.add, e1, e2, render]
    · rw [t1, ← t2]; simp
    · simp only [List.length_nil] at n2
      simp [Result.add, n1, ← n2]
  | cons x xs =>
    refine ⟨s1 ++ ⟨l1 ++ x.text, x.name, x.spec⟩ :: xs, l2, ?_, ?_, o2, ?_, ?_⟩
    · simp [Result.add, e1, e2, render, Seg.chars, Seg.body, Seg.tail]
    · intro s hs
      rcases List.mem_append.mp hs with hs | hs
      · exact w1 s hs
      · rcases List.mem_cons.mp hs with rfl | hs
        · have := w2 x (by simp)
          exact ⟨⟨o1.append this.1.text, this.1.name, this.1.spec⟩, this.2⟩
        · exact w2 s (by simp [hs])
    · rw [List.map_append, t1, ← t2]; rfl
    · simp only [List.length_cons] at n2
      simp [Result.add, n1, ← n2]

/-- **C79.** The result's string is again a format string with one field per runtime argument, in order, each with
the specifier written for that argument (also through nested results), provided that the texts of the
compile-time arguments contain no unpaired braces and no runtime argument is a `stdx::tuple`. -/
theorem C79_result_fields_partial {F : Formatter κ} (hF : Formats F Tv Ts) (hT : ∀ x, Ts [] x = some x) {last : List Char}
    (hl : TextOK last) {segs : List Seg} {args : List (Arg κ ρ)} (h : Match segs args) {ts : List (List Char)}
    (hc : CallFields Tv segs args ts) :
    ∃ r, ctFormat F (render segs last) args = .ok r ∧ FieldsAre r ts ∧ countSpecifiers r.str = .ok r.args.length ∧
      ts.length = r.args.length := by
  have key : ∃ r, expectRes Tv Ts last segs args = some r ∧ FieldsAre r ts := by
    clear hF
    induction hc with
    | nil => exact ⟨_, rfl, fieldsAre_lit hl⟩
    | @ct s v t ss as ts ht hok _ ih =>
      obtain ⟨hsa, hm⟩ : SegFor s (.ct v : Arg κ ρ) ∧ Match ss as := by cases h; exact ⟨by assumption, by assumption⟩
      obtain ⟨y, e, hy⟩ := ih hm
      refine ⟨_, by rw [expectRes, e, pieceRes_ct ht], ?_⟩
      refine fieldsAre_add (ts := []) ⟨[], s.text ++ t, by simp [render], by simp, hsa.1.text.append hok, rfl, rfl⟩ hy
    | @rt s r ss as ts _ ih =>
      obtain ⟨hsa, hm⟩ : SegFor s (.rt r : Arg κ ρ) ∧ Match ss as := by cases h; exact ⟨by assumption, by assumption⟩
      obtain ⟨y, e, hy⟩ := ih hm
      refine ⟨_, by rw [expectRes, e]; rfl, ?_⟩
      refine fieldsAre_add (ts := [s.tail]) ⟨[⟨s.text, [], s.spec⟩], [], ?_, ?_, .nil, rfl, rfl⟩ hy
      · simp [render, Seg.chars, Seg.body, Seg.tail]
      · intro x hx
        rw [List.mem_singleton] at hx
        subst hx
        exact ⟨⟨hsa.1.text, ⟨⟨by simp, by simp⟩, by simp⟩, hsa.1.spec⟩, rfl⟩
    | @res s r us ss as ts hs hr _ ih =>
      obtain ⟨hsa, hm⟩ : SegFor s (.res r : Arg κ ρ) ∧ Match ss as := by cases h; exact ⟨by assumption, by assumption⟩
      obtain ⟨y, e, hy⟩ := ih hm
      refine ⟨_, by rw [expectRes, pieceRes_res hT hs, e], ?_⟩
      have := fieldsAre_add (fieldsAre_add (fieldsAre_lit hsa.1.text) hr) hy
      simpa using this
  obtain ⟨r, e, hr⟩ := key
  refine ⟨r, by rw [ctFormat_eq hF hl h, e]; rfl, hr, ?_, ?_⟩
  · obtain ⟨s, l, e1, w, o, _, n⟩ := hr
    rw [e1, countSpecifiers_render (fun x hx => (w x hx).1) o, n]
  · obtain ⟨s, l, _, _, _, t, n⟩ := hr
    rw [← t, List.length_map, n]

end Fixed

end Verif.CtFormat
