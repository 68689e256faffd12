import Verif.CtString.Model
import Mathlib.Tactic.NormNum

/-!
# `ct_string` (C54, C55)

Specification: the string with characters `l` is the array `l` followed by a terminator.
-/

namespace Verif.CtString

/-- `s` is the terminated string with the characters `l`. -/
def Holds (s : CtString) (l : List Char) : Prop := s = l ++ [nul]

theorem size_of {s : CtString} {l : List Char} (h : Holds s l) : size s = l.length := by
  rw [Holds] at h; subst h; unfold size; rw [szDec_of_pos (by simp)]; simp

/-- The copy loop overwrites `n` characters. -/
theorem copyLoop_eq (off : Nat) (src : List Char) (pre mid post : List Char) (i : Nat) (h1 : i + mid.length ≤ src.length)
    (h2 : pre.length = i + off) :
    copyLoop off src (pre ++ (mid ++ post)) i mid.length = .ok (pre ++ ((src.drop i).take mid.length ++ post)) := by
  induction mid generalizing i pre with
  | nil => simp [copyLoop]
  | cons m ms ih =>
    rw [List.length_cons] at h1
    have hi : i < src.length := by omega
    rw [List.length_cons, copyLoop, arrGet_ok.mpr (List.getElem?_eq_getElem hi), Outcome.ok_bind,
      arrSet_of_lt (by simp; omega), Outcome.ok_bind, List.drop_eq_getElem_cons hi, List.take_succ_cons, ← h2]
    have : (pre ++ (m :: ms ++ post)).set pre.length src[i] = (pre ++ [src[i]]) ++ (ms ++ post) := by simp
    rw [this, ih (pre ++ [src[i]]) (i + 1) (by omega) (by simp; omega)]
    simp

/-- A copy into a zeroed array. -/
theorem copy_zeroed (src : List Char) (n k : Nat) (h : k ≤ src.length) :
    copyLoop 0 src (zeroed (k + n)) 0 k = .ok (src.take k ++ List.replicate n nul) := by
  have := copyLoop_eq 0 src [] (List.replicate k nul) (List.replicate n nul) 0 (by simpa using h) rfl
  simp only [List.length_replicate, List.nil_append, List.drop_zero] at this
  rw [zeroed, ← List.replicate_append_replicate]
  exact this

theorem ofArray_eq (str : List Char) : ofArray str = .ok str := by
  have := copy_zeroed str 0 str.length (Nat.le_refl _)
  rw [ofArray]
  simpa using this

/-- **C54, constructors.** A string literal gives the string of its characters, and so do a pointer and a size
(or string view) into an array one larger; a conversion to a type and back, and from a type and back, is
the identity. -/
theorem C54_ct_string_construct_partial (l : List Char) :
    (∃ s, ofArray (l ++ [nul]) = .ok s ∧ Holds s l) ∧
    (∀ rest, ∃ s, ofPtrSize (l.length + 1) (l ++ rest) l.length = .ok s ∧ Holds s l) ∧
    (∃ s, fromType l = .ok s ∧ Holds s l ∧ toType s = .ok l) ∧
    (∀ s, Holds s l → (toType s >>= fromType) = .ok s) := by
  have hto : ∀ s, Holds s l → toType s = .ok l := by
    intro s hs
    unfold toType
    rw [size_of hs]
    rw [Holds] at hs
    subst hs
    have : ∀ (n i : Nat), i + n = l.length → toType.go (l ++ [nul]) i n = .ok (l.drop i) := by
      intro n
      induction n with
      | zero => intro i hi; rw [toType.go, List.drop_eq_nil_of_le (by omega)]
      | succ n ih =>
        intro i hi
        have h1 : i < l.length := by omega
        rw [toType.go, (arrGet_ok (x := l[i])).mpr (by rw [List.getElem?_append_left h1, List.getElem?_eq_getElem h1]),
          Outcome.ok_bind, ih (i + 1) (by omega), Outcome.ok_bind, List.drop_eq_getElem_cons h1]
        rfl
    have := this l.length 0 (by omega)
    simpa using this
  refine ⟨⟨_, ofArray_eq _, rfl⟩, fun rest => ?_, ⟨_, ofArray_eq _, rfl, hto _ rfl⟩, fun s hs => ?_⟩
  · refine ⟨l ++ [nul], ?_, rfl⟩
    rw [ofPtrSize, copy_zeroed _ _ _ (by simp)]
    simp
  · rw [hto s hs, Outcome.ok_bind, fromType, ofArray_eq, hs]

/-- **C54, literals.** What the compiler makes of the literal `"l"` — the characters `l` and a null character — gives the string
of the characters `l`, which itself ends in a null character. -/
theorem C54_literal (l : List Char) :
    ∃ s, ofArray (l ++ [Char.ofNat 0]) = .ok s ∧ Holds s l ∧ view s = .ok l ∧ s.getLast? = some (Char.ofNat 0) := by
  refine ⟨l ++ [nul], ofArray_eq _, rfl, ?_, by simp [nul]⟩
  unfold view
  rw [size_of (l := l) rfl]
  simp

/-- An array that is not terminated is accepted by the constructor and is not a terminated string; its last
character is lost in views, comparison and concatenation. -/
theorem C54_unterminated_array_violated (l : List Char) (c : Char) (hc : c ≠ nul) :
    ofArray (l ++ [c]) = .ok (l ++ [c]) ∧ (∀ x, ¬ Holds (l ++ [c]) x) ∧ view (l ++ [c]) = .ok l := by
  refine ⟨ofArray_eq _, fun x hx => ?_, ?_⟩
  · rw [Holds] at hx
    have := congrArg List.getLast? hx
    simp at this
    exact hc this
  · have : size (l ++ [c]) = l.length := by unfold size; rw [szDec_of_pos (by simp)]; simp
    rw [view, this, if_pos (by simp)]; simp

/-- **C54, concatenation.** `+` concatenates the characters, keeps the terminator and adds the sizes. -/
theorem C54_ct_string_concat {a b : CtString} {x y : List Char} (ha : Holds a x) (hb : Holds b y) :
    ∃ c, concat a b = .ok c ∧ Holds c (x ++ y) ∧ size c = size a + size b ∧ c.length = a.length + b.length - 1 := by
  have h1 := size_of ha
  have h2 := size_of hb
  have hr : concat a b = .ok ((x ++ y) ++ [nul]) := by
    unfold concat
    rw [h1, h2]
    rw [Holds] at ha hb
    subst ha hb
    rw [szDec_of_pos (by simp), szDec_of_pos (by simp)]
    simp only [List.length_append, List.length_cons, List.length_nil]
    rw [show x.length + (0 + 1) + (y.length + (0 + 1)) - 1 = x.length + (y.length + 1) by omega,
      show x.length + (0 + 1) - 1 = x.length by omega, copy_zeroed _ _ _ (by simp), Outcome.ok_bind,
      List.take_append_of_le_length (Nat.le_refl _), List.take_length]
    have := copyLoop_eq x.length (y ++ [nul]) x (List.replicate y.length nul) [nul] 0 (by simp) (by simp)
    simp only [List.length_replicate, List.drop_zero] at this
    rw [List.take_append_of_le_length (Nat.le_refl _), List.take_length] at this
    rw [List.append_assoc, ← this]
    congr 1
    rw [← List.replicate_append_replicate]; rfl
  refine ⟨_, hr, rfl, ?_, ?_⟩
  · rw [size_of (l := x ++ y) rfl, h1, h2, List.length_append]
  · rw [Holds] at ha hb
    subst ha hb
    simp
    omega

/-- **C54, monoid laws.** Concatenation is associative and the empty string is its identity. -/
theorem C54_ct_string_monoid {a b c : CtString} {x y z : List Char} (ha : Holds a x) (hb : Holds b y) (hc : Holds c z) :
    (concat a b >>= (concat · c)) = (concat b c >>= concat a) ∧ concat a [nul] = .ok a ∧ concat [nul] a = .ok a ∧
    ∃ r, (concat a b >>= (concat · c)) = .ok r ∧ Holds r (x ++ y ++ z) := by
  obtain ⟨ab, e1, h1, _⟩ := C54_ct_string_concat ha hb
  obtain ⟨bc, e2, h2, _⟩ := C54_ct_string_concat hb hc
  obtain ⟨r1, e3, h3, _⟩ := C54_ct_string_concat h1 hc
  obtain ⟨r2, e4, h4, _⟩ := C54_ct_string_concat ha h2
  obtain ⟨r3, e5, h5, _⟩ := C54_ct_string_concat ha (b := [nul]) (y := []) rfl
  obtain ⟨r4, e6, h6, _⟩ := C54_ct_string_concat (a := [nul]) (x := []) rfl ha
  have ha' := ha
  rw [Holds] at ha' h3 h4 h5 h6
  refine ⟨?_, ?_, ?_, r1, ?_, h3⟩
  · rw [e1, e2, Outcome.ok_bind, Outcome.ok_bind, e3, e4, h3, h4, List.append_assoc x]
  · rw [e5, h5, ha', List.append_nil]
  · rw [e6, h6, ha', List.nil_append]
  · rw [e1, Outcome.ok_bind, e3]

/-- **C54, observation.** `==` is character-wise equality, whatever the sizes; the view and forward iteration
give the characters and reverse iteration their reverse; `empty` is right. -/
theorem C54_ct_string_observe {a b : CtString} {x y : List Char} (ha : Holds a x) (hb : Holds b y) :
    eq a b = .ok (decide (x = y)) ∧ view a = .ok x ∧ iterate a = .ok x ∧ iterateRev a = .ok x.reverse ∧
    (empty a = true ↔ x = []) := by
  have hv : ∀ {s l}, Holds s l → view s = .ok l := by
    intro s l h
    rw [view, size_of h]
    rw [Holds] at h; subst h
    rw [if_pos (by simp)]; simp
  refine ⟨?_, hv ha, ?_, ?_, ?_⟩
  · rw [eq, hv ha, hv hb, Outcome.ok_bind, Outcome.ok_bind]
    by_cases h : x = y <;> simp [h]
  · rw [Holds] at ha; subst ha; simp [iterate]
  · rw [Holds] at ha; subst ha; simp [iterateRev]
  · rw [Holds] at ha; subst ha; simp [empty]

/-! ## C55 -/

theorem scan_none {c : Char} {l : List Char} {i : Nat} (h : c ∉ l) : scan c l i = none := by
  induction l generalizing i with
  | nil => rfl
  | cons x xs ih =>
    rw [List.mem_cons, not_or] at h
    rw [scan, if_neg (fun e => h.1 e.symm), ih h.2]

theorem scan_some {c : Char} {p q : List Char} {i : Nat} (h : c ∉ p) : scan c (p ++ c :: q) i = some (i + p.length) := by
  induction p generalizing i with
  | nil => simp [scan]
  | cons x xs ih =>
    rw [List.mem_cons, not_or] at h
    rw [List.cons_append, scan, if_neg (fun e => h.1 e.symm), ih h.2, List.length_cons]
    congr 1; omega

/-- **C55.** When the character occurs, `split` returns the text before its first occurrence and the text
after it: for every string of the form `p ++ [c] ++ q` with no `c` in `p` (and every string in which `c`
occurs has exactly one such form), also when `c` is the NUL character. -/
theorem C55_split_at_first {s : CtString} {c : Char} {p q : List Char} (h : Holds s (p ++ c :: q)) (hp : c ∉ p)
    (hsz : s.length < szMod) :
    ∃ a b, split s c = .ok (a, b) ∧ Holds a p ∧ Holds b q := by
  have hs := size_of h
  rw [Holds] at h
  have hl : s.length = p.length + (q.length + 1) + 1 := by rw [h]; simp; omega
  refine ⟨p ++ [nul], q ++ [nul], ?_, rfl, rfl⟩
  unfold split
  have e : scan c s 0 = some p.length := by
    rw [h, List.append_assoc, List.cons_append, scan_some hp, Nat.zero_add]
  rw [e]
  simp only
  have e2 : (size s + szMod - p.length) % szMod = q.length + 1 := by
    rw [hs]
    rw [szMod_lit] at *
    simp only [List.length_append, List.length_cons]
    omega
  rw [e2, szDec_of_pos (by omega), Nat.add_sub_cancel, ofPtrSize, ofPtrSize, copy_zeroed _ _ _ (by omega), Outcome.ok_bind,
    copy_zeroed _ _ _ (by rw [List.length_drop]; omega), Outcome.ok_bind, h]
  simp [List.take_append_of_le_length]

/-- **C55.** When a character other than NUL does not occur, `split` returns the string and an empty one. -/
theorem C55_split_absent_partial {s : CtString} {c : Char} {l : List Char} (h : Holds s l) (hc : c ∉ l) (hn : c ≠ nul) :
    ∃ a b, split s c = .ok (a, b) ∧ a = s ∧ Holds a l ∧ Holds b [] := by
  refine ⟨s, [nul], ?_, rfl, h, rfl⟩
  unfold split
  rw [scan_none (by rw [h]; simp [hc, hn])]

/-- **C55 fails for NUL.** Splitting a string without a NUL character at NUL does not compile: the scan
includes the terminator, and the suffix then has type `ct_string<0>` and size `SIZE_MAX`. -/
theorem C55_split_nul_violated {s : CtString} {l : List Char} (h : Holds s l) (hc : nul ∉ l) (hsz : s.length < szMod) :
    split s nul = .ub := by
  have hs := size_of h
  rw [Holds] at h
  unfold split
  have e : scan nul s 0 = some l.length := by rw [h, scan_some hc, Nat.zero_add]
  rw [e]
  simp only
  have hl : s.length = l.length + 1 := by rw [h]; simp
  have e2 : (size s + szMod - l.length) % szMod = 0 := by
    rw [hs, Nat.add_sub_cancel_left, Nat.mod_self]
  rw [e2, ofPtrSize, ofPtrSize, copy_zeroed _ _ _ (by omega), Outcome.ok_bind]
  have e3 : szDec 0 = 18446744073709551614 + 1 := by unfold szDec; rw [if_pos rfl]
  rw [e3, copyLoop]
  have : s.drop (l.length + 1) = [] := List.drop_eq_nil_of_le (by omega)
  rw [this]
  rfl

/-- Rejoining: the two parts with the character between them are the original, and the first part does not
contain the character. -/
theorem C55_split_rejoin {s : CtString} {c : Char} {l : List Char} (h : Holds s l) (hc : c ∈ l) (hsz : s.length < szMod) :
    ∃ a b x y, split s c = .ok (a, b) ∧ Holds a x ∧ Holds b y ∧ l = x ++ c :: y ∧ c ∉ x ∧
      (concat a [c, nul] >>= (concat · b)) = .ok s := by
  obtain ⟨p, q, e, hp⟩ := List.eq_append_cons_of_mem hc
  subst e
  obtain ⟨a, b, e1, h1, h2⟩ := C55_split_at_first h hp hsz
  refine ⟨a, b, p, q, e1, h1, h2, rfl, hp, ?_⟩
  obtain ⟨_, _, _, r, e3, h3⟩ := C54_ct_string_monoid h1 (b := [c, nul]) (y := [c]) rfl h2
  rw [e3]
  rw [Holds] at h3 h
  rw [h3, h]; simp

/-- **C54, from a pointer and a size** (or a string view): the constructor of `ct_string<n>` compiles exactly
when `sz` characters can be read and fit in the array; the rest of the array is NUL.  With `sz = n` there
is no terminator. -/
theorem C54_from_pointer (n : Nat) (str : List Char) (sz : Nat) :
    ofPtrSize n str sz =
      if sz ≤ n ∧ sz ≤ str.length then .ok (str.take sz ++ List.replicate (n - sz) nul) else .ub := by
  by_cases h : sz ≤ n ∧ sz ≤ str.length
  · rw [if_pos h, ofPtrSize]
    have := copy_zeroed str (n - sz) sz h.2
    rwa [show sz + (n - sz) = n by omega] at this
  · rw [if_neg h, ofPtrSize]
    have : ∀ (k i : Nat) (dst : List Char), i ≤ dst.length → i ≤ str.length →
        ¬ (i + k ≤ dst.length ∧ i + k ≤ str.length) → copyLoop 0 str dst i k = .ub := by
      intro k
      induction k with
      | zero => intro i dst h1 h2 h3; exact absurd ⟨h1, h2⟩ h3
      | succ k ih =>
        intro i dst h1 h2 h3
        rw [copyLoop]
        by_cases hs : i < str.length
        · rw [arrGet_ok.mpr (List.getElem?_eq_getElem hs), Outcome.ok_bind]
          by_cases hd : i < dst.length
          · rw [arrSet_of_lt (by omega), Outcome.ok_bind]
            apply ih
            · simp; omega
            · omega
            · simp; omega
          · have : arrSet dst (i + 0) str[i] = .ub := by unfold arrSet; rw [if_neg (by omega)]
            rw [this]; rfl
        · have : arrGet str i = .ub := by unfold arrGet; rw [List.getElem?_eq_none (by omega)]
          rw [this]; rfl
    exact this sz 0 _ (Nat.zero_le _) (Nat.zero_le _) (by simpa [zeroed] using h)

/-- A constant expression built from string literals with `+`. -/
inductive Expr where
  | lit (l : List Char)
  | plus (a b : Expr)

/-- Its value. -/
def Expr.eval : Expr → Outcome CtString
  | .lit l => ofArray (l ++ [nul])
  | .plus a b => a.eval >>= fun x => b.eval >>= fun y => concat x y

/-- Its text, read off from left to right. -/
def Expr.text : Expr → List Char
  | .lit l => l
  | .plus a b => a.text ++ b.text

/-- **C54, expressions.** Every expression of literals and `+`, however nested, compiles to the string with
the literals' characters from left to right; so equal texts give equal strings however they were built. -/
theorem C54_ct_string_expressions (e : Expr) : ∃ s, e.eval = .ok s ∧ Holds s e.text := by
  induction e with
  | lit l => exact ⟨_, ofArray_eq _, rfl⟩
  | plus a b iha ihb =>
    obtain ⟨x, ex, hx⟩ := iha
    obtain ⟨y, ey, hy⟩ := ihb
    obtain ⟨r, er, hr, _⟩ := C54_ct_string_concat hx hy
    exact ⟨r, by rw [Expr.eval, ex, Outcome.ok_bind, ey, Outcome.ok_bind, er], hr⟩

/-- A client that splits off fields while the separator occurs, at most `n` times. -/
def splitAll (c : Char) : Nat → CtString → Outcome (List CtString)
  | 0, s => .ok [s]
  | n + 1, s =>
    if c ∈ s then split s c >>= fun ab => splitAll c n ab.2 >>= fun r => .ok (ab.1 :: r) else .ok [s]

/-- **C55, all fields.** Splitting repeatedly recovers every list of fields (none containing the separator)
from the string that joins them with the separator. -/
theorem C55_split_all {c : Char} (hc : c ≠ nul) (f : List Char) (fs : List (List Char)) (hf : ∀ x ∈ f :: fs, c ∉ x)
    {s : CtString} (h : Holds s (f ++ fs.flatMap (c :: ·))) (hsz : s.length < szMod) {n : Nat} (hn : fs.length ≤ n) :
    ∃ r, splitAll c n s = .ok r ∧ List.Forall₂ Holds r (f :: fs) := by
  induction fs generalizing f s n with
  | nil =>
    simp only [List.flatMap_nil, List.append_nil] at h
    refine ⟨[s], ?_, List.Forall₂.cons h List.Forall₂.nil⟩
    cases n with
    | zero => rfl
    | succ n =>
      rw [splitAll, if_neg]
      rw [Holds] at h; rw [h]
      have := hf f (by simp)
      simp [this, hc]
  | cons g fs ih =>
    obtain ⟨n, rfl⟩ : ∃ m, n = m + 1 := ⟨n - 1, by simp only [List.length_cons] at hn; omega⟩
    rw [List.flatMap_cons, List.cons_append] at h
    obtain ⟨a, b, e, ha, hb⟩ := C55_split_at_first h (hf f (by simp)) hsz
    have hbl : b.length < szMod := by
      rw [Holds] at h hb
      rw [h] at hsz; rw [hb]
      simp only [List.length_append, List.length_cons] at hsz ⊢
      omega
    obtain ⟨r, er, hr⟩ := ih g (fun x hx => hf x (by simp at hx ⊢; right; exact hx)) hb hbl (n := n)
      (by simp only [List.length_cons] at hn; omega)
    refine ⟨a :: r, ?_, List.Forall₂.cons ha hr⟩
    rw [splitAll, if_pos (by rw [Holds] at h; rw [h]; simp), e, Outcome.ok_bind]
    dsimp only
    rw [er, Outcome.ok_bind]

/-! ### Non-vacuity -/

example : Holds ['a', '/', 'b', '/', nul] (['a'] ++ [['b'], []].flatMap ('/' :: ·)) ∧
    ∀ x ∈ [['a'], ['b'], []], '/' ∉ x := by unfold Holds; decide

example : Holds ['a', '/', 'b', '/', 'c', nul] (['a'] ++ '/' :: ['b', '/', 'c']) ∧ '/' ∉ ['a'] := by unfold Holds; decide
example : Holds ['a', nul, 'b', nul] (['a'] ++ nul :: ['b']) ∧ nul ∉ ['a'] := by unfold Holds; decide
example : Holds ['a', 'b', nul] ['a', 'b'] ∧ nul ∉ ['a', 'b'] ∧ '/' ∉ ['a', 'b'] := by unfold Holds; decide
example : split ['a', '/', 'b', '/', nul] '/' = .ok (['a', nul], ['b', '/', nul]) := by
  obtain ⟨a, b, e, h1, h2⟩ := C55_split_at_first (s := ['a', '/', 'b', '/', nul]) (c := '/') (p := ['a']) (q := ['b', '/']) rfl
    (by decide) (by rw [szMod_lit]; decide)
  rw [e, h1, h2]; rfl

/-- **C54, no characters.** A `ct_string<0>`, which can be written, has not even a terminator: its view, iterating over it in
either direction and comparing it are undefined (ill-formed in a constant expression), and its size is the largest number. -/
theorem C54_no_characters_undefined (b : CtString) :
    view [] = .ub ∧ iterate [] = .ub ∧ iterateRev [] = .ub ∧ eq [] b = .ub ∧ size [] = 2 ^ 64 - 1 ∧ empty [] = false := by
  have hs : size [] = 2 ^ 64 - 1 := by simp [size, szDec]
  have hv : view [] = .ub := by unfold view; rw [hs]; rfl
  exact ⟨hv, rfl, rfl, by unfold eq; rw [hv]; rfl, hs, rfl⟩

end Verif.CtString
