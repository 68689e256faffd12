import Verif.CtFormat.PropsEsc

/-!
# `ct_format`: format strings that are not well formed, and padded nested results (C56, C57)
-/

namespace Verif.CtFormat

variable {κ ρ : Type} {Tv : List Char → κ → Option (List Char)} {Ts : List Char → List Char → Option (List Char)}

/-- A text whose last character is an opening brace has no field: it is accepted as a text. -/
theorem C56_trailing_brace_violated (F : Formatter κ) {text : List Char} (ht : TextOK text) :
    countSpecifiers (text ++ ['{']) = .ok 0 ∧
    ctFormat F (text ++ ['{']) ([] : List (Arg κ ρ)) = .ok ⟨text ++ ['{'], [], []⟩ := by
  have hf : findSpec (text ++ ['{']) 0 = .ok (text ++ ['{']).length := by
    rw [findSpec_eq (l := text ++ ['{']) (by omega) rfl, fs_text ht]
    simp [fs]
  have hc : countSpecifiers (text ++ ['{']) = .ok 0 := by
    unfold countSpecifiers
    rw [hf, Outcome.ok_bind, countLoop, if_pos rfl]
  refine ⟨hc, ?_⟩
  unfold ctFormat
  rw [hc, Outcome.ok_bind]
  unfold splitSpecifiers
  rw [hf, Outcome.ok_bind, splitLoop, if_pos rfl, Outcome.ok_bind]
  simp only [Nat.zero_add]
  rw [arrSet_of_lt (by simp), Outcome.ok_bind]
  rw [show slice (text ++ ['{']) 0 (text ++ ['{']).length = text ++ ['{'] by
    unfold slice; rw [List.drop_zero, Nat.sub_zero, List.take_length]]
  simp [arrGet, foldArgs]

/-- **C56 fails for unclosed fields.** A field that is not closed is not rejected: for a runtime argument, the
last character of the format string takes the place of the closing brace and the rest of what follows the
opening brace is taken as the name. -/
theorem C56_unclosed_violated (F : Formatter κ) {text n : List Char} (ht : TextOK text) {c : Char}
    (hn : Plain (n ++ [c])) (hc : ':' ∉ n ++ [c]) (x : ρ) :
    ctFormat F (text ++ '{' :: (n ++ [c])) [.rt x] =
      .ok ⟨text ++ ['{', c], [x], if n = [] then [] else [⟨n, 0, -1⟩]⟩ := by
  generalize hfmt : text ++ '{' :: (n ++ [c]) = fmt
  have hlen : fmt.length = text.length + n.length + 2 := by rw [← hfmt]; simp; omega
  obtain ⟨d, ds, hd⟩ : ∃ d ds, n ++ [c] = d :: ds := by
    cases h : n ++ [c] with
    | nil => simp at h
    | cons d ds => exact ⟨d, ds, rfl⟩
  have hd0 : d ≠ '{' := fun e => hn.1 (by rw [hd, e]; simp)
  have hf0 : findSpec fmt 0 = .ok text.length := by
    rw [findSpec_eq (l := text ++ '{' :: (n ++ [c])) (i := 0) (fmt := fmt) (by omega) hfmt.symm, fs_text ht, hd, fs_field hd0]; simp
  have hf1 : findSpec fmt (text.length + 1) = .ok fmt.length := by
    have e : fmt.drop (text.length + 1) = n ++ [c] := by
      rw [← hfmt, show text ++ '{' :: (n ++ [c]) = (text ++ ['{']) ++ (n ++ [c]) by simp,
        show text.length + 1 = (text ++ ['{']).length by simp, List.drop_left]
    rw [findSpec_eq (by omega) e]
    have := fs_text (textOK_of_noopen hn.1) []
    rw [List.append_nil] at this
    rw [this, hlen]
    simp [fs]; omega
  have hf2 : findSpec fmt fmt.length = .ok fmt.length := by
    rw [findSpec_eq (l := []) (Nat.le_refl _) (by simp)]; simp [fs]
  have hcount : countSpecifiers fmt = .ok 1 := by
    unfold countSpecifiers
    rw [hf0, Outcome.ok_bind, countLoop, if_neg (by omega), hf1, Outcome.ok_bind]
    rw [show fmt.length = (fmt.length - 1) + 1 by omega, countLoop, if_pos (by omega)]
  have hclose : stdFind fmt text.length '}' = fmt.length := by
    unfold stdFind
    have e : fmt.drop text.length = '{' :: (n ++ [c]) := by rw [← hfmt, List.drop_left]
    rw [e, findIdx_none]
    · rw [hlen]; simp; omega
    · rw [List.mem_cons, not_or]; exact ⟨by decide, hn.2⟩
  have hsplit : splitSpecifiers 2 fmt = .ok [⟨fmt, text.length⟩, ⟨[], 0⟩] := by
    unfold splitSpecifiers
    rw [hf0, Outcome.ok_bind, splitLoop, if_neg (by omega)]
    simp only
    rw [hclose]
    simp only [ne_eq, not_true_eq_false, if_false, List.replicate]
    rw [arrSet_of_lt (by simp), Outcome.ok_bind, hf2, Outcome.ok_bind]
    obtain ⟨m, hm⟩ : ∃ m, fmt.length = m + 1 := ⟨fmt.length - 1, by omega⟩
    rw [hm, splitLoop, ← hm, if_pos rfl, Outcome.ok_bind]
    simp only
    rw [arrSet_of_lt (by simp)]
    simp [slice]
  have hext : extract fmt text.length = .ok (text ++ ['{', c], n) := by
    have full : fmt ++ [CtString.nul] = [] ++ ((text ++ ['{']) ++ (n ++ ([c] ++ [CtString.nul]))) := by rw [← hfmt]; simp
    have p1 := part_mid [] (text ++ ['{']) _ fmt full
    have p2 := part_mid (text ++ ['{']) n ([c] ++ [CtString.nul]) fmt (by rw [full]; rfl)
    have p3 := part_mid (text ++ ['{'] ++ n) [c] [CtString.nul] fmt (by rw [full]; simp)
    simp only [List.length_nil, List.length_append, List.length_singleton] at p1 p2 p3
    unfold extract findColon
    simp only
    rw [if_pos (by omega)]
    have hk : stdFind (fmt ++ [CtString.nul]) (text.length + 1) ':' = fmt.length + 1 := by
      unfold stdFind
      have e : (fmt ++ [CtString.nul]).drop (text.length + 1) = n ++ [c] ++ [CtString.nul] := by
        rw [full, List.nil_append, show text.length + 1 = (text ++ ['{']).length by simp, List.drop_left]; simp
      rw [e, findIdx_none]
      · rw [hlen]; simp; omega
      · rw [List.mem_append, not_or]; exact ⟨hc, by decide⟩
    rw [hk, if_pos rfl, Outcome.ok_bind]
    simp only
    rw [if_neg (by omega)]
    by_cases hn0 : n = []
    · rw [if_pos (by rw [hlen, hn0]; simp), ← hfmt, hn0]; rfl
    · have hpos : 0 < n.length := List.length_pos_iff.mpr hn0
      rw [if_neg (by omega), p1, Outcome.ok_bind, show fmt.length - 1 = text.length + 1 + n.length by omega, p3, Outcome.ok_bind,
        show text.length + 1 + n.length - (text.length + 1) = n.length by omega, p2, Outcome.ok_bind]
      simp
  unfold ctFormat
  rw [hcount, Outcome.ok_bind, hsplit, Outcome.ok_bind]
  rw [show arrGet [(⟨fmt, text.length⟩ : Split), ⟨[], 0⟩] 1 = .ok ⟨[], 0⟩ from rfl, Outcome.ok_bind]
  rw [if_neg (by simp)]
  rw [foldArgs, show arrGet [(⟨fmt, text.length⟩ : Split), ⟨[], 0⟩] 0 = .ok ⟨fmt, text.length⟩ from rfl, Outcome.ok_bind]
  simp only
  rw [hext, Outcome.ok_bind]
  by_cases hn0 : n = []
  · subst hn0; simp [format1, foldArgs, Result.add]
  · simp [format1, foldArgs, Result.add, hn0]

/-- **C57 fails for padded nested results.** When the formatting library pads the string of a nested result (a
specifier such as `:>n`), the position of the nested result's named argument is not moved: it does not denote
its text. -/
theorem C57_padding_violated {F : Formatter κ} (hF : Formats F Tv Ts) {n sp : List Char} (hn : Plain n) (hc : ':' ∉ n)
    (hne : n ≠ []) (hsp : Plain sp) {v : κ} {c : Char} {t : List Char} (hv : Tv [] v = some (c :: t)) (hsc : c ≠ ' ')
    (hpad : Ts (':' :: sp) (c :: t) = some (' ' :: c :: t)) :
    ∃ inner r : Result ρ, ctFormat F ('{' :: (n ++ ['}'])) [.ct v] = .ok inner ∧
      NamedMeans inner [(n, .text (c :: t))] ∧
      ctFormat F ('{' :: ':' :: (sp ++ ['}'])) [.res inner] = .ok r ∧ r.str = ' ' :: c :: t ∧
      ¬ NamedMeans r [(n, .text (c :: t))] := by
  have hw1 : (⟨[], n, none⟩ : Seg).WF := ⟨.nil, ⟨hn, hc⟩, fun _ h => by cases h⟩
  have hw2 : (⟨[], [], some sp⟩ : Seg).WF := ⟨.nil, ⟨⟨by simp, by simp⟩, by simp⟩, fun _ h => by cases h; exact hsp⟩
  have h1 := ctFormat_any (ρ := ρ) F (last := []) .nil (segs := [⟨[], n, none⟩]) (args := [.ct v]) (by simp; exact hw1) rfl
  have hv' := hF.val [] [] v ⟨by simp, by simp⟩ ⟨by simp, by simp⟩ (Or.inl rfl)
  rw [hv] at hv'
  have hp1 : pieceAny (ρ := ρ) F ⟨[], n, none⟩ (.ct v) = .ok ⟨c :: t, [], [⟨n, 0, (c :: t).length⟩]⟩ := by
    unfold pieceAny format1
    simp only [Seg.tail]
    rw [hv']
    simp [hne]
  rw [resAny, hp1] at h1
  have e1 : (⟨c :: t, [], [⟨n, 0, (c :: t).length⟩]⟩ : Result ρ).add (lit []) = ⟨c :: t, [], [⟨n, 0, (c :: t).length⟩]⟩ := by
    simp [Result.add, lit]
  have h1' : ctFormat F (render [⟨[], n, none⟩] []) [.ct v] = .ok (⟨c :: t, [], [⟨n, 0, (c :: t).length⟩]⟩ : Result ρ) := by
    rw [h1]; exact congrArg Outcome.ok e1
  have h2 := ctFormat_any (ρ := ρ) F (last := []) .nil (segs := [⟨[], [], some sp⟩])
    (args := [.res ⟨c :: t, [], [⟨n, 0, (c :: t).length⟩]⟩]) (by simp; exact hw2) rfl
  have hs' := hF.str [] (':' :: sp) (c :: t) ⟨by simp, by simp⟩
    ⟨by rw [List.mem_cons, not_or]; exact ⟨by decide, hsp.1⟩, by rw [List.mem_cons, not_or]; exact ⟨by decide, hsp.2⟩⟩ (Or.inr rfl)
  rw [hpad] at hs'
  have hp2 : pieceAny (κ := κ) F ⟨[], [], some sp⟩ (.res (⟨c :: t, [], [⟨n, 0, (c :: t).length⟩]⟩ : Result ρ)) =
      .ok ⟨' ' :: c :: t, [], [⟨n, 0, (c :: t).length⟩]⟩ := by
    unfold pieceAny format1
    simp only [Seg.tail]
    rw [hs']
    have : (⟨n, 0, (c :: t).length⟩ : Named).offset 0 0 = ⟨n, 0, (c :: t).length⟩ := offset_zero _
    simp only [List.map_cons, List.map_nil, List.length_nil, this]
    rfl
  rw [resAny, hp2] at h2
  refine ⟨_, (⟨' ' :: c :: t, [], [⟨n, 0, (c :: t).length⟩]⟩ : Result ρ).add (lit []), by
    rw [← h1']; simp [render, Seg.chars, Seg.body, Seg.tail], ?_, ?_, by simp [Result.add, lit], ?_⟩
  · refine List.Forall₂.cons ⟨rfl, ?_, 0, rfl, by simp, by simp, by simp [slice]⟩ List.Forall₂.nil
    show decide (((c :: t).length : Int) < 0) = false
    exact decide_eq_false (by omega)
  · rw [show '{' :: ':' :: (sp ++ ['}']) = render [⟨[], [], some sp⟩] [] by simp [render, Seg.chars, Seg.body, Seg.tail]]
    exact h2
  · intro h
    have e : ((⟨' ' :: c :: t, [], [⟨n, 0, (c :: t).length⟩]⟩ : Result ρ).add (lit [])).named = [⟨n, 0, (c :: t).length⟩] := by
      simp [Result.add, lit]
    unfold NamedMeans at h
    rw [e] at h
    cases h with
    | cons hm _ =>
      obtain ⟨_, _, k, hk, _, _, hs⟩ := hm
      have hk0 : k = 0 := by simpa using hk.symm
      subst hk0
      simp [slice, Result.add, lit] at hs
      exact hsc hs.1.symm

/-! ### Non-vacuity -/

example : TextOK ['a', '}', '{', '{'] ∧ Plain (['x', 'y'] ++ ['z']) ∧ ':' ∉ ['x', 'y'] ++ ['z'] :=
  ⟨.plain (by decide) (.plain (by decide) (.esc .nil)), ⟨by decide, by decide⟩, by decide⟩

/-- A formatter that pads on the left for the specifier `:>`. -/
def padFormat (s x : List Char) : Option (List Char) :=
  let text := s.takeWhile (· != '{')
  let tail := ((s.dropWhile (· != '{')).drop 1).takeWhile (· != '}')
  if tail = [] then some (text ++ x) else if tail = [':', '>'] then some (text ++ ' ' :: x) else none

theorem padFormat_eq {text tail : List Char} (ht : Plain text) (hs : Plain tail) (x : List Char) :
    padFormat (text ++ '{' :: (tail ++ ['}'])) x =
      (if tail = [] then some x else if tail = [':', '>'] then some (' ' :: x) else none).map (text ++ ·) := by
  have h1 : ∀ (l : List Char) (c : Char) (r : List Char), c ∉ l → (l ++ c :: r).takeWhile (· != c) = l ∧
      (l ++ c :: r).dropWhile (· != c) = c :: r := by
    intro l c r h
    induction l with
    | nil => simp
    | cons a l ih =>
      rw [List.mem_cons, not_or] at h
      obtain ⟨i1, i2⟩ := ih h.2
      have : (a != c) = true := by simp; exact fun e => h.1 e.symm
      simp [this, i1, i2]
  unfold padFormat
  rw [(h1 _ _ _ ht.1).1, (h1 _ _ _ ht.1).2]
  simp only [List.drop_succ_cons, List.drop_zero]
  rw [(h1 tail '}' [] hs.2).1]
  split
  · simp
  · split <;> simp

/-- The hypotheses of `C57_padding_violated` can be met. -/
example : ∃ (F : Formatter (List Char)) (Tv Ts : List Char → List Char → Option (List Char)), Formats F Tv Ts ∧
    Tv [] ['h', 'i'] = some ['h', 'i'] ∧ Ts [':', '>'] ['h', 'i'] = some [' ', 'h', 'i'] :=
  ⟨⟨padFormat, padFormat⟩, fun tail x => if tail = [] then some x else if tail = [':', '>'] then some (' ' :: x) else none,
    fun tail x => if tail = [] then some x else if tail = [':', '>'] then some (' ' :: x) else none,
    ⟨fun _ _ v h1 h2 _ => padFormat_eq h1 h2 v, fun _ _ v h1 h2 _ => padFormat_eq h1 h2 v⟩, rfl, rfl⟩

end Verif.CtFormat
