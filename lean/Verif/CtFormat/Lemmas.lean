import Verif.CtFormat.Spec

/-! # Lemmas on splitting format strings -/

namespace Verif.CtFormat

/-! ## `find_spec` -/

/-- `find_spec` on a suffix. -/
def fs : List Char → Nat
  | [] => 0
  | c :: r =>
    if c = '{' then
      match r with
      | [] => 1
      | d :: r' => if d = '{' then 2 + fs r' else 0
    else 1 + fs r

theorem fs_ne {c : Char} (h : c ≠ '{') (r : List Char) : fs (c :: r) = 1 + fs r := by
  rw [fs.eq_def]; simp [h]

theorem fs_esc (r : List Char) : fs ('{' :: '{' :: r) = 2 + fs r := by
  rw [fs.eq_def]; simp

theorem fs_field {d : Char} (h : d ≠ '{') (r : List Char) : fs ('{' :: d :: r) = 0 := by
  rw [fs.eq_def]; simp [h]

theorem findSpecLoop_eq (fmt : List Char) (n : Nat) : ∀ (l pre : List Char) (fuel : Nat), l.length ≤ n → fmt = pre ++ l → l.length < fuel →
    findSpecLoop fmt fuel (pre.length + l.findIdx (· == '{')) = .ok (pre.length + fs l) := by
  induction n with
  | zero =>
    intro l pre fuel hl hf hfu
    have : l = [] := List.eq_nil_of_length_eq_zero (by omega)
    subst this
    obtain ⟨f, rfl⟩ : ∃ f, fuel = f + 1 := ⟨fuel - 1, by simp at hfu; omega⟩
    rw [findSpecLoop, if_pos (by simp [hf])]
    rfl
  | succ n ih =>
    intro l pre fuel hl hf hfu
    cases l with
    | nil =>
      obtain ⟨f, rfl⟩ : ∃ f, fuel = f + 1 := ⟨fuel - 1, by simp at hfu; omega⟩
      rw [findSpecLoop, if_pos (by simp [hf])]
      rfl
    | cons c r =>
      rw [List.length_cons] at hl hfu
      by_cases hc : c = '{'
      · subst hc
        have e0 : ('{' :: r).findIdx (· == '{') = 0 := by simp [List.findIdx_cons]
        rw [e0, Nat.add_zero]
        obtain ⟨f, rfl⟩ : ∃ f, fuel = f + 1 := ⟨fuel - 1, by omega⟩
        have hlen : fmt.length = pre.length + (r.length + 1) := by rw [hf]; simp
        rw [findSpecLoop, if_neg (by omega)]
        cases r with
        | nil =>
          rw [if_neg (by simp [hlen])]
          have := ih [] (pre ++ ['{']) f (by simp) (by rw [hf]; simp) (by simp at hfu ⊢; omega)
          unfold stdFind
          rw [List.drop_eq_nil_of_le (by rw [hlen]; simp)]
          simp only [List.length_append, List.length_singleton] at this
          rw [this]
          rfl
        | cons d r' =>
          rw [List.length_cons] at hl hfu hlen
          rw [if_pos (by omega)]
          have hg : arrGet fmt (pre.length + 1) = .ok d := by
            rw [arrGet_ok, hf, List.getElem?_append_right (by omega)]; simp
          rw [hg, Outcome.ok_bind]
          by_cases hd : d = '{'
          · subst hd
            rw [if_neg (by simp)]
            have := ih r' (pre ++ ['{', '{']) f (by omega) (by rw [hf]; simp) (by omega)
            unfold stdFind
            have e : fmt.drop (pre.length + 2) = r' := by
              rw [hf, show pre ++ '{' :: '{' :: r' = (pre ++ ['{', '{']) ++ r' by simp,
                show pre.length + 2 = (pre ++ ['{', '{']).length by simp, List.drop_left]
            rw [e]
            simp only [List.length_append, List.length_cons, List.length_nil] at this
            rw [this, fs_esc]
            congr 1; omega
          · rw [if_pos hd, fs_field hd]; rfl
      · have e0 : (c :: r).findIdx (· == '{') = r.findIdx (· == '{') + 1 := by
          have : (c == '{') = false := by simpa using hc
          simp [List.findIdx_cons, this]
        have := ih r (pre ++ [c]) fuel (by omega) (by rw [hf]; simp) (by omega)
        simp only [List.length_append, List.length_singleton] at this
        rw [e0, show pre.length + (r.findIdx (· == '{') + 1) = pre.length + 1 + r.findIdx (· == '{') by omega, this,
          fs_ne hc]
        congr 1; omega

theorem findSpec_eq {fmt : List Char} {i : Nat} {l : List Char} (hi : i ≤ fmt.length) (h : fmt.drop i = l) :
    findSpec fmt i = .ok (i + fs l) := by
  have hf : fmt = fmt.take i ++ l := by rw [← h, List.take_append_drop]
  have hl : (fmt.take i).length = i := by rw [List.length_take]; omega
  have := findSpecLoop_eq fmt l.length l (fmt.take i) (fmt.length + 1) (Nat.le_refl _) hf
    (by rw [← h, List.length_drop]; omega)
  rw [hl] at this
  unfold findSpec stdFind
  rw [h, this]

theorem fs_text {t : List Char} (h : TextOK t) (r : List Char) : fs (t ++ r) = t.length + fs r := by
  induction h with
  | nil => simp
  | plain hc _ ih => rw [List.cons_append, fs_ne hc, ih, List.length_cons]; omega
  | esc _ ih =>
    rw [List.cons_append, List.cons_append, fs_esc, ih]; simp; omega

theorem textOK_of_noopen {t : List Char} (h : '{' ∉ t) : TextOK t := by
  induction t with
  | nil => exact .nil
  | cons c t ih =>
    rw [List.mem_cons, not_or] at h
    exact .plain (fun e => h.1 e.symm) (ih h.2)

theorem TextOK.append {a b : List Char} (ha : TextOK a) (hb : TextOK b) : TextOK (a ++ b) := by
  induction ha with
  | nil => exact hb
  | plain hc _ ih => exact .plain hc ih
  | esc _ ih => exact .esc ih

theorem Seg.WF.body_noopen {s : Seg} (h : s.WF) : '{' ∉ s.body := by
  unfold Seg.body Seg.tail
  have h1 := h.name.1.1
  have h2 := h.spec
  cases e : s.spec with
  | none => simp [h1]
  | some x => simp [h1, (h2 x e).1]

theorem Seg.WF.tail_plain {s : Seg} (h : s.WF) : Plain s.tail := by
  unfold Seg.tail
  cases e : s.spec with
  | none => simp [Plain]
  | some x => have := h.spec x e; simpa [Plain] using this

theorem Seg.tail_shape (s : Seg) : s.tail = [] ∨ s.tail.head? = some ':' := by
  unfold Seg.tail
  cases s.spec <;> simp

/-- Where `find_spec` stops, relative to the start of the rest of a format string. -/
def nextSpec (segs : List Seg) (last : List Char) : Nat :=
  match segs with
  | [] => last.length
  | s :: _ => s.text.length

theorem fs_render {segs : List Seg} {last : List Char} (hs : ∀ s ∈ segs, s.WF) (hl : TextOK last) :
    fs (render segs last) = nextSpec segs last := by
  cases segs with
  | nil =>
    have := fs_text hl []
    simpa [render, nextSpec, fs] using this
  | cons s ss =>
    have hw := hs s (by simp)
    have e : render (s :: ss) last = s.text ++ '{' :: (s.body ++ render ss last) := by
      simp [render, Seg.chars]
    rw [e, fs_text hw.text, nextSpec]
    have hb := hw.body_noopen
    cases hbody : s.body with
    | nil => have : s.body ≠ [] := by simp [Seg.body]
             exact absurd hbody this
    | cons d r =>
      have : d ≠ '{' := by rintro rfl; rw [hbody] at hb; simp at hb
      rw [List.cons_append, fs_field this]; rfl

/-! ## Counting and splitting -/

theorem render_cons (s : Seg) (ss : List Seg) (last : List Char) :
    render (s :: ss) last = s.text ++ '{' :: (s.body ++ render ss last) := by
  simp [render, Seg.chars]

theorem render_length (segs : List Seg) (last : List Char) : segs.length ≤ (render segs last).length := by
  induction segs with
  | nil => simp
  | cons s ss ih => rw [render_cons]; simp; omega

theorem findSpec_render {fmt pre mid : List Char} {segs : List Seg} {last : List Char} (hs : ∀ s ∈ segs, s.WF)
    (hl : TextOK last) (hm : '{' ∉ mid) (hf : fmt = pre ++ (mid ++ render segs last)) :
    findSpec fmt pre.length = .ok (pre.length + mid.length + nextSpec segs last) := by
  rw [findSpec_eq (l := mid ++ render segs last) (by rw [hf]; simp) (by rw [hf, List.drop_left]),
    fs_text (textOK_of_noopen hm), fs_render hs hl, Nat.add_assoc]

theorem countLoop_eq {fmt : List Char} {last : List Char} (hl : TextOK last) (segs : List Seg) (hs : ∀ s ∈ segs, s.WF) (pre : List Char)
    (hf : fmt = pre ++ render segs last) (fuel c : Nat) (hfu : segs.length < fuel) :
    countLoop fmt fuel (pre.length + nextSpec segs last) c = .ok (c + segs.length) := by
  induction segs generalizing pre fuel c with
  | nil =>
    obtain ⟨f, rfl⟩ : ∃ f, fuel = f + 1 := ⟨fuel - 1, by simp at hfu; omega⟩
    rw [countLoop, if_pos (by rw [hf]; simp [render, nextSpec])]; rfl
  | cons s ss ih =>
    rw [List.length_cons] at hfu
    obtain ⟨f, rfl⟩ : ∃ f, fuel = f + 1 := ⟨fuel - 1, by omega⟩
    have hw := hs s (by simp)
    have hf1 : fmt = (pre ++ (s.text ++ ['{'])) ++ (s.body ++ render ss last) := by rw [hf, render_cons]; simp
    have hlen : fmt.length = pre.length + (s.text.length + 1) + (s.body.length + (render ss last).length) := by
      rw [hf1]; simp; omega
    rw [countLoop, nextSpec, if_neg (by omega)]
    have e1 : pre.length + s.text.length + 1 = (pre ++ (s.text ++ ['{'])).length := by simp; omega
    rw [e1, findSpec_render (fun x hx => hs x (by simp [hx])) hl hw.body_noopen hf1, Outcome.ok_bind]
    have hf2 : fmt = (pre ++ s.chars) ++ render ss last := by rw [hf, render_cons]; simp [Seg.chars]
    have := ih (fun x hx => hs x (by simp [hx])) (pre ++ s.chars) hf2 f (c + 1) (by omega)
    have e2 : (pre ++ (s.text ++ ['{'])).length + s.body.length = (pre ++ s.chars).length := by
      simp [Seg.chars]; omega
    rw [e2, this, List.length_cons]
    congr 1; omega

theorem countSpecifiers_render {segs : List Seg} {last : List Char} (hs : ∀ s ∈ segs, s.WF) (hl : TextOK last) :
    countSpecifiers (render segs last) = .ok segs.length := by
  unfold countSpecifiers
  have h1 := findSpec_render (fmt := render segs last) (pre := []) (mid := []) hs hl (by simp) (by simp)
  have h2 := countLoop_eq hl segs hs [] (fmt := render segs last) (by simp) ((render segs last).length + 1) 0
    (by have := render_length segs last; omega)
  simp only [List.length_nil, Nat.zero_add] at h1 h2
  rw [h1, Outcome.ok_bind, h2]

/-- The entry of a segment. -/
def Seg.split (s : Seg) : Split := ⟨s.chars, s.text.length⟩

theorem findIdx_first {l r : List Char} {c : Char} (h : c ∉ l) : (l ++ c :: r).findIdx (· == c) = l.length := by
  induction l with
  | nil => simp [List.findIdx_cons]
  | cons x l ih =>
    rw [List.mem_cons, not_or] at h
    rw [List.cons_append, List.findIdx_cons, ih h.2]
    have : (x == c) = false := by simpa using fun e => h.1 e.symm
    simp [this]

theorem findIdx_none {l : List Char} {c : Char} (h : c ∉ l) : l.findIdx (· == c) = l.length := by
  induction l with
  | nil => rfl
  | cons x l ih =>
    rw [List.mem_cons, not_or] at h
    rw [List.findIdx_cons, ih h.2]
    have : (x == c) = false := by simpa using fun e => h.1 e.symm
    simp [this]

theorem slice_mid (a b c : List Char) : slice (a ++ (b ++ c)) a.length (a.length + b.length) = b := by
  unfold slice
  rw [List.drop_left, Nat.add_sub_cancel_left, List.take_left']
  rfl

theorem splitLoop_eq {fmt : List Char} {last : List Char} (hl : TextOK last) (segs : List Seg) (hs : ∀ s ∈ segs, s.WF) (pre : List Char)
    (hf : fmt = pre ++ render segs last) (fuel : Nat) (hfu : segs.length < fuel) (done : List Split) (rest : List Split) (hr : segs.length ≤ rest.length) :
    splitLoop fmt fuel (done ++ rest) done.length pre.length (pre.length + nextSpec segs last) =
      .ok (done ++ (segs.map Seg.split ++ rest.drop segs.length), done.length + segs.length, fmt.length - last.length) := by
  induction segs generalizing pre fuel done rest with
  | nil =>
    obtain ⟨f, rfl⟩ : ∃ f, fuel = f + 1 := ⟨fuel - 1, by simp at hfu; omega⟩
    have : fmt.length = pre.length + last.length := by rw [hf]; simp [render]
    rw [splitLoop, if_pos (by rw [this]; rfl), this]
    simp
  | cons s ss ih =>
    rw [List.length_cons] at hfu hr
    obtain ⟨f, rfl⟩ : ∃ f, fuel = f + 1 := ⟨fuel - 1, by omega⟩
    obtain ⟨x, xs, rfl⟩ : ∃ x xs, rest = x :: xs := by
      cases rest with
      | nil => simp at hr
      | cons x xs => exact ⟨x, xs, rfl⟩
    have hw := hs s (by simp)
    have hf2 : fmt = pre ++ (s.chars ++ render ss last) := by rw [hf, render_cons]; simp [Seg.chars]
    have hlen : fmt.length = pre.length + (s.chars.length + (render ss last).length) := by
      rw [hf2]; simp
    have hch : s.chars.length = s.text.length + (s.name.length + s.tail.length + 1) + 1 := by
      simp [Seg.chars, Seg.body]; omega
    rw [splitLoop, nextSpec, if_neg (by omega)]
    have hfind : stdFind fmt (pre.length + s.text.length) '}' = pre.length + s.chars.length - 1 := by
      unfold stdFind
      have e : fmt.drop (pre.length + s.text.length) = ('{' :: (s.name ++ s.tail)) ++ '}' :: render ss last := by
        rw [hf2, show pre ++ (s.chars ++ render ss last) =
          (pre ++ s.text) ++ (('{' :: (s.name ++ s.tail)) ++ '}' :: render ss last) by simp [Seg.chars, Seg.body],
          show pre.length + s.text.length = (pre ++ s.text).length by simp, List.drop_left]
      rw [e, findIdx_first]
      · simp; omega
      · simp only [List.mem_cons, List.mem_append, not_or]
        exact ⟨by decide, hw.name.1.2, hw.tail_plain.2⟩
    simp only [hfind]
    rw [if_pos (by omega), show pre.length + s.chars.length - 1 + 1 = pre.length + s.chars.length by omega]
    have hslice : slice fmt pre.length (pre.length + s.chars.length) = s.chars := by rw [hf2]; exact slice_mid _ _ _
    rw [hslice, show pre.length + s.text.length - pre.length = s.text.length by omega,
      arrSet_of_lt (by simp), Outcome.ok_bind]
    have e1 : (done ++ x :: xs).set done.length ⟨s.chars, s.text.length⟩ = (done ++ [s.split]) ++ xs := by
      simp [Seg.split]
    have hf3 : fmt = (pre ++ s.chars) ++ ([] ++ render ss last) := by rw [hf2]; simp
    have h4 := findSpec_render (fun y hy => hs y (by simp [hy])) hl (by simp) hf3
    rw [List.length_append] at h4
    simp only [List.length_nil, Nat.add_zero] at h4
    rw [e1, h4, Outcome.ok_bind]
    have := ih (fun y hy => hs y (by simp [hy])) (pre ++ s.chars) (by rw [hf3]; simp) f (by omega) (done ++ [s.split]) xs (by simpa using hr)
    rw [List.length_append, List.length_append] at this
    simp only [List.length_singleton] at this
    rw [this]
    simp; omega

theorem splitSpecifiers_render {segs : List Seg} {last : List Char} (hs : ∀ s ∈ segs, s.WF) (hl : TextOK last) :
    splitSpecifiers (segs.length + 1) (render segs last) = .ok (segs.map Seg.split ++ [⟨last, last.length⟩]) := by
  unfold splitSpecifiers
  have h1 := findSpec_render (fmt := render segs last) (pre := []) (mid := []) hs hl (by simp) (by simp)
  have h2 := splitLoop_eq hl segs hs [] (fmt := render segs last) (by simp) ((render segs last).length + 1)
    (by have := render_length segs last; omega) [] (List.replicate (segs.length + 1) ⟨[], 0⟩) (by simp)
  simp only [List.length_nil, Nat.zero_add, List.nil_append] at h1 h2
  rw [h1, Outcome.ok_bind, h2, Outcome.ok_bind]
  have e : (render segs last).length = (segs.flatMap Seg.chars).length + last.length := by simp [render]
  have e2 : slice (render segs last) ((render segs last).length - last.length) (render segs last).length = last := by
    have := slice_mid (segs.flatMap Seg.chars) last []
    rw [List.append_nil] at this
    rw [e, Nat.add_sub_cancel]
    exact this
  simp only
  rw [arrSet_of_lt (by simp), e2, show (render segs last).length - ((render segs last).length - last.length) = last.length by omega]
  congr 1
  rw [List.set_append_right _ _ (by simp)]
  simp

/-! ## Extracting the name -/

theorem part_mid (a b c : List Char) (s : List Char) (hs : s ++ [CtString.nul] = a ++ (b ++ c)) :
    part s a.length b.length = .ok b := by
  unfold part
  have : s.length + 1 = a.length + (b.length + c.length) := by
    have := congrArg List.length hs
    simpa using this
  rw [if_pos (by omega), hs, List.drop_left, List.take_left']
  rfl

theorem extract_seg {s : Seg} (h : s.WF) : extract s.chars s.text.length = .ok (s.text ++ '{' :: (s.tail ++ ['}']), s.name) := by
  unfold extract findColon
  have hch : s.chars.length = s.text.length + (s.name.length + s.tail.length + 1) + 1 := by
    simp [Seg.chars, Seg.body]; omega
  simp only
  rw [if_pos (by omega)]
  unfold stdFind
  have e : (s.chars ++ [CtString.nul]).drop (s.text.length + 1) = s.name ++ (s.tail ++ ['}', CtString.nul]) := by
    rw [show s.chars ++ [CtString.nul] = (s.text ++ ['{']) ++ (s.name ++ (s.tail ++ ['}', CtString.nul])) by
      simp [Seg.chars, Seg.body], show s.text.length + 1 = (s.text ++ ['{']).length by simp, List.drop_left]
  rw [e]
  have full : s.chars ++ [CtString.nul] = [] ++ ((s.text ++ ['{']) ++ (s.name ++ (s.tail ++ ['}', CtString.nul]))) := by
    simp [Seg.chars, Seg.body]
  have p1 := part_mid [] (s.text ++ ['{']) _ s.chars full
  have p2 := part_mid (s.text ++ ['{']) s.name (s.tail ++ ['}', CtString.nul]) s.chars (by rw [full]; rfl)
  simp only [List.length_nil, List.length_append, List.length_singleton] at p1 p2
  cases hspec : s.spec with
  | none =>
    have ht : s.tail = [] := by unfold Seg.tail; rw [hspec]
    rw [ht] at e hch ⊢
    have hnone : (s.name ++ ([] ++ ['}', CtString.nul])).findIdx (· == ':') = s.name.length + 2 := by
      rw [findIdx_none]
      · simp
      · simp only [List.nil_append, List.mem_append, List.mem_cons, not_or]
        exact ⟨h.name.2, by decide, by decide, by simp⟩
    rw [hnone, if_pos (by rw [hch]; simp; omega), Outcome.ok_bind]
    simp only [List.length_nil] at hch
    simp only
    rw [if_neg (by omega)]
    by_cases hn : s.name = []
    · rw [if_pos (by rw [hch, hn]; simp), hn]
      simp [Seg.chars, Seg.body, ht, hn]
    · have hpos : 0 < s.name.length := List.length_pos_iff.mpr hn
      rw [if_neg (by omega), p1, Outcome.ok_bind]
      have p3 := part_mid (s.text ++ ('{' :: s.name)) ['}'] [CtString.nul] s.chars (by simp [Seg.chars, Seg.body, ht])
      simp only [List.length_append, List.length_cons, List.length_nil] at p3
      rw [show s.chars.length - 1 = s.text.length + (s.name.length + 1) by omega, p3, Outcome.ok_bind,
        show s.text.length + (s.name.length + 1) - (s.text.length + 1) = s.name.length by omega, p2, Outcome.ok_bind]
      simp
  | some x =>
    have ht : s.tail = ':' :: x := by unfold Seg.tail; rw [hspec]
    have hf : (s.name ++ (s.tail ++ ['}', CtString.nul])).findIdx (· == ':') = s.name.length := by
      rw [ht, List.cons_append]
      exact findIdx_first h.name.2
    have htl : s.tail.length = x.length + 1 := by rw [ht]; simp
    rw [hf, if_neg (by omega), Outcome.ok_bind]
    simp only
    rw [p1, Outcome.ok_bind]
    have p3 := part_mid (s.text ++ ('{' :: s.name)) (s.tail ++ ['}']) [CtString.nul] s.chars (by simp [Seg.chars, Seg.body])
    simp only [List.length_append, List.length_cons, List.length_nil] at p3
    rw [show s.text.length + 1 + s.name.length = s.text.length + (s.name.length + 1) by omega,
      show s.chars.length - (s.text.length + (s.name.length + 1)) = s.tail.length + (0 + 1) by omega, p3, Outcome.ok_bind,
      show s.text.length + (s.name.length + 1) - (s.text.length + 1) = s.name.length by omega, p2, Outcome.ok_bind]
    simp

end Verif.CtFormat
