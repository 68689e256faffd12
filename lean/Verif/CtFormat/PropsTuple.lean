import Verif.CtFormat.PropsArgs

/-!
# `ct_format` with runtime arguments that are `stdx::tuple`s (C56, C57, C79, C100)

ct_format.hpp:367 and 369 put a runtime argument into a tuple with `tuple{std::move(arg)}`.  When the argument is a
`stdx::tuple` itself, that is a copy of it: its elements are kept, not the tuple.
-/

namespace Verif.CtFormat

variable {κ ρ ε τ : Type}

theorem foldArgs_tup (F : Formatter κ) (splits : List Split) (last : Result ρ) (rs : List ρ) (x : ρ) (post : List (Arg κ ρ)) :
    ∀ (pre : List (Arg κ ρ)) (i : Nat) {r : Result ρ}, foldArgs F splits last i (pre ++ .tup rs :: post) = .ok r →
      ∃ r', foldArgs F splits last i (pre ++ .rt x :: post) = .ok r' ∧ r'.str = r.str ∧
        ∃ a b, r'.args = a ++ x :: b ∧ r.args = a ++ rs ++ b
  | [], i, r, h => by
    simp only [List.nil_append, foldArgs] at h ⊢
    obtain ⟨s, e1, h⟩ := Outcome.bind_eq_ok.mp h
    obtain ⟨⟨f, n⟩, e2, h⟩ := Outcome.bind_eq_ok.mp h
    obtain ⟨p, e3, h⟩ := Outcome.bind_eq_ok.mp h
    obtain ⟨q, e4, h⟩ := Outcome.bind_eq_ok.mp h
    cases h
    simp only [e1, e2, Outcome.ok_bind, e4]
    simp only [format1] at e3 ⊢
    by_cases hn : n = []
    · subst hn; cases e3; exact ⟨_, rfl, rfl, [], q.args, rfl, rfl⟩
    · rw [if_pos hn] at e3 ⊢; cases e3; exact ⟨_, rfl, rfl, [], q.args, rfl, rfl⟩
  | c :: pre, i, r, h => by
    simp only [List.cons_append, foldArgs] at h ⊢
    obtain ⟨s, e1, h⟩ := Outcome.bind_eq_ok.mp h
    obtain ⟨⟨f, n⟩, e2, h⟩ := Outcome.bind_eq_ok.mp h
    obtain ⟨p, e3, h⟩ := Outcome.bind_eq_ok.mp h
    obtain ⟨q, e4, h⟩ := Outcome.bind_eq_ok.mp h
    cases h
    obtain ⟨q', e5, hs, a, b, ha, hb⟩ := foldArgs_tup F splits last rs x post pre (i + 1) e4
    simp only [e1, e2, e3, e5, Outcome.ok_bind]
    refine ⟨_, rfl, ?_, p.args ++ a, b, ?_, ?_⟩
    · show p.str ++ q'.str = p.str ++ q.str; rw [hs]
    · show p.args ++ q'.args = _; rw [ha, List.append_assoc]
    · show p.args ++ q.args = _; rw [hb]; simp

/-- **C56 fails for tuples.** In any call, a runtime argument that is a `stdx::tuple` leaves the string as any other
runtime argument does, but its elements take the place of the one argument.  For every format string, formatter
and other arguments. -/
theorem C56_tuple_argument_violated (F : Formatter κ) (fmt : List Char) (pre post : List (Arg κ ρ)) (rs : List ρ) (x : ρ)
    {r : Result ρ} (h : ctFormat F fmt (pre ++ .tup rs :: post) = .ok r) :
    ∃ r', ctFormat F fmt (pre ++ .rt x :: post) = .ok r' ∧ r'.str = r.str ∧
      ∃ a b, r'.args = a ++ x :: b ∧ r.args = a ++ rs ++ b := by
  unfold ctFormat at h ⊢
  obtain ⟨n, e1, h⟩ := Outcome.bind_eq_ok.mp h
  obtain ⟨s, e2, h⟩ := Outcome.bind_eq_ok.mp h
  obtain ⟨l, e3, h⟩ := Outcome.bind_eq_ok.mp h
  simp only [e1, e2, e3, Outcome.ok_bind]
  have hlen : (pre ++ .tup rs :: post : List (Arg κ ρ)).length = (pre ++ .rt x :: post).length := by simp
  rw [hlen] at h
  split at h
  · cases h
  · rename_i hn
    rw [if_neg hn]
    exact foldArgs_tup F s _ rs x post pre 0 h

/-- The result of a call with one argument, a tuple. -/
theorem ctFormat_one_tuple (F : Formatter κ) {s : Seg} (hs : s.WF) {last : List Char} (hl : TextOK last) (rs : List ρ) :
    ctFormat F (render [s] last) ([.tup rs] : List (Arg κ ρ)) =
      .ok ⟨s.text ++ '{' :: (s.tail ++ ['}']) ++ last, rs, if s.name ≠ [] then [⟨s.name, 0, -1⟩] else []⟩ := by
  rw [ctFormat_any F hl (by simpa using hs) rfl]
  simp only [resAny, pieceAny, format1]
  split
  · simp [Outcome.ok_bind, Result.add, lit]
  · simp [Outcome.ok_bind, Result.add, lit]

/-- **C79 fails for tuples.** For every format string with one field and a `stdx::tuple` as its argument, the call
compiles, the result's string has one field, and its arguments are the elements of the tuple, however many. -/
theorem C79_tuple_violated (F : Formatter κ) {s : Seg} (hs : s.WF) {last : List Char} (hl : TextOK last) (rs : List ρ) :
    ∃ r, ctFormat F (render [s] last) ([.tup rs] : List (Arg κ ρ)) = .ok r ∧ countSpecifiers r.str = .ok 1 ∧
      r.args.length = rs.length := by
  refine ⟨_, ctFormat_one_tuple F hs hl rs, ?_, rfl⟩
  have h : s.text ++ '{' :: (s.tail ++ ['}']) ++ last = render [⟨s.text, [], s.spec⟩] last := by
    simp [render, Seg.chars, Seg.body, Seg.tail]
  rw [h]
  refine countSpecifiers_render ?_ hl
  intro x hx
  rw [List.mem_singleton] at hx
  subst hx
  exact ⟨hs.text, ⟨⟨by simp, by simp⟩, by simp⟩, hs.spec⟩

/-- **C57, names fail for tuples.** A name given to a `stdx::tuple` denotes the tuple's first element; if it has none, the
name denotes no argument at all. -/
theorem C57_names_tuple_violated (F : Formatter κ) {s : Seg} (hs : s.WF) (hn : s.name ≠ []) {last : List Char} (hl : TextOK last) :
    (∃ r : Result ρ, ctFormat F (render [s] last) [.tup []] = .ok r ∧ r.named.map Named.name = [s.name] ∧
      ∀ x, ¬ NamedMeans r [(s.name, .arg x)]) ∧
    ∀ (x : ρ) (rs : List ρ), ∃ r, ctFormat F (render [s] last) [.tup (x :: rs)] = .ok r ∧
      NamedMeans r [(s.name, .arg x)] := by
  constructor
  · refine ⟨_, ctFormat_one_tuple F hs hl [], by rw [if_pos hn]; rfl, fun x h => ?_⟩
    rw [if_pos hn] at h
    obtain ⟨_, _, k, _, e⟩ := (List.forall₂_cons.mp h).1
    simp at e
  · intro x rs
    refine ⟨_, ctFormat_one_tuple F hs hl (x :: rs), ?_⟩
    rw [if_pos hn]
    exact .cons ⟨rfl, by simp [Named.isRuntime], 0, rfl, rfl⟩ .nil

/-- **C100 fails for tuples.** An empty `stdx::tuple` that is not a constant is not kept as a runtime argument: the
result has none, and converts to a string, in which the field is still to be seen.  Given in `CX_VALUE` it is formatted. -/
theorem C100_tuple_violated (F : Formatter κ) (N : Names ε τ) (asType : Bool) {s : Seg} (hs : s.WF) {last : List Char}
    (hl : TextOK last) (v : κ) :
    ∃ r, ctFormatForms F N (fun _ => none) asType (render [s] last) [.tup v []] = .ok ⟨r, asType⟩ ∧ r.args = [] ∧
      FR.plus ⟨r, asType⟩ = .ok (s.text ++ '{' :: (s.tail ++ ['}']) ++ last) := by
  have h := C100_forms F N (fun _ => none) asType (render [s] last) (fs := [.tup v []]) (as := [.tup []]) (.cons (.tuple v []) .nil)
  rw [ctFormat_one_tuple _ hs hl] at h
  exact ⟨_, h, rfl, rfl⟩

/-! ## Cases -/

example : (⟨['a'], ['n'], some ['x']⟩ : Seg).WF ∧ TextOK ['z'] ∧ (⟨['a'], ['n'], some ['x']⟩ : Seg).name ≠ [] :=
  ⟨⟨textOK_of_noopen (by decide), ⟨⟨by decide, by decide⟩, by decide⟩, fun _ h => by cases h; exact ⟨by decide, by decide⟩⟩,
    textOK_of_noopen (by decide), by decide⟩

/-- `ct_format<"a{}b{n}c">(1, stdx::tuple{2, 3})`: two fields, three arguments. -/
example : ctFormat plainFormatter "a{}b{n}c".toList [.rt 1, .tup [2, 3]] =
    .ok ⟨"a{}b{}c".toList, [1, 2, 3], [⟨['n'], 1, 0⟩]⟩ := by decide

end Verif.CtFormat
