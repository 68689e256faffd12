import Verif.TypeName.Model

/-! # Names of types and enumerators: the property theorems (C83, C84) -/

namespace Verif.TypeName

theorem rfindFrom_skip (s : List Char) (c : Char) (i n : Nat) (h : ∀ j, i < j → j ≤ i + n → s[j]? ≠ some c) :
    rfindFrom s c (i + n) = rfindFrom s c i := by
  induction n with
  | zero => rfl
  | succ n ih =>
    show rfindFrom s c ((i + n) + 1) = _
    rw [rfindFrom, if_neg (h _ (by omega) (by omega))]
    exact ih fun j h1 h2 => h j h1 (by omega)

theorem rfindFrom_hit (s : List Char) (c : Char) (i : Nat) (h : s[i]? = some c) : rfindFrom s c i = some i := by
  cases i with
  | zero => rw [rfindFrom, if_pos h]
  | succ i => rw [rfindFrom, if_pos h]

/-- The last `c` of a text is found. -/
theorem rfindFrom_last (a b suf : List Char) (c : Char) (hb : c ∉ b) :
    rfindFrom (a ++ c :: b ++ suf) c (a.length + b.length) = some a.length := by
  rw [rfindFrom_skip, rfindFrom_hit]
  · simp
  · intro j h1 h2
    rw [List.append_assoc, List.getElem?_append_right (by omega)]
    obtain ⟨m, hm⟩ : ∃ m, j - a.length = m + 1 := ⟨j - a.length - 1, by omega⟩
    rw [hm, List.cons_append, List.getElem?_cons_succ, List.getElem?_append_left (by omega)]
    intro e
    exact hb (List.mem_of_getElem? e)

theorem findLastOf_last (a b : List Char) (c : Char) (hb : c ∉ b) : findLastOf (a ++ c :: b) c = some a.length := by
  unfold findLastOf
  rw [if_neg (by simp)]
  have := rfindFrom_last a b [] c hb
  rw [List.append_nil] at this
  rw [show (a ++ c :: b).length - 1 = a.length + b.length by simp]
  exact this

theorem findLastOf_none (s : List Char) (c : Char) (h : c ∉ s) : findLastOf s c = none := by
  have key : ∀ i, rfindFrom s c i = none := by
    intro i
    induction i with
    | zero => rw [rfindFrom, if_neg fun e => h (List.mem_of_getElem? e)]
    | succ i ih => rw [rfindFrom, if_neg fun e => h (List.mem_of_getElem? e)]; exact ih
  unfold findLastOf
  split
  · rfl
  · exact key _

theorem rfind_last (a b suf : List Char) (c : Char) (hb : c ∉ b) (pos : Nat) (hp : pos = a.length + b.length) :
    rfind (a ++ c :: b ++ suf) c pos = some a.length := by
  unfold rfind
  rw [if_neg (by simp), Nat.min_eq_left (by simp; omega), hp]
  exact rfindFrom_last a b suf c hb

/-- **C83, names, partial.** Where the compiler puts `= `, the name and a tail of the expected length into its text, the name comes
out, provided it has no `=` in it.  Missing: names with one (`C83_equals_sign_violated`). -/
theorem C83_type_as_string_partial (k : Nat) (pre name tail : List Char) (hk : tail.length + 1 = k) (hn : '=' ∉ name) :
    typeAsString k (pre ++ '=' :: ' ' :: name ++ tail) = .ok name := by
  unfold typeAsString
  rw [if_neg (by simp; omega)]
  simp only
  have hr : (pre ++ '=' :: ' ' :: name ++ tail).length - k = pre.length + (name.length + 1) := by simp; omega
  rw [hr]
  have hf := rfind_last pre (' ' :: name) tail '=' (by simp [hn]) (pre.length + (name.length + 1)) (by simp)
  rw [hf]
  simp only
  unfold substr
  rw [if_neg (by simp), if_pos (by omega)]
  congr 1
  rw [show pre ++ '=' :: ' ' :: name ++ tail = (pre ++ ['=', ' ']) ++ (name ++ tail) by simp,
    List.drop_left' (by simp), List.take_left' (by omega)]

/-- With a `=` in the name — in a template argument, say — everything up to it and the next character is lost. -/
theorem C83_equals_sign_violated (k : Nat) (pre a b tail : List Char) (x : Char) (hk : tail.length + 1 = k) (hb : '=' ∉ x :: b) :
    typeAsString k (pre ++ '=' :: ' ' :: (a ++ '=' :: x :: b) ++ tail) = .ok b ∧ b ≠ a ++ '=' :: x :: b := by
  constructor
  · unfold typeAsString
    have hlen : (pre ++ '=' :: ' ' :: (a ++ '=' :: x :: b) ++ tail) = ((pre ++ '=' :: ' ' :: a) ++ '=' :: x :: b ++ tail) := by simp
    rw [hlen]
    rw [if_neg (by simp; omega)]
    simp only
    have hr : ((pre ++ '=' :: ' ' :: a) ++ '=' :: x :: b ++ tail).length - k = (pre ++ '=' :: ' ' :: a).length + (b.length + 1) := by
      simp; omega
    rw [hr, rfind_last (pre ++ '=' :: ' ' :: a) (x :: b) tail '=' hb _ (by simp)]
    simp only
    unfold substr
    rw [if_neg (by simp; omega), if_pos (by omega)]
    congr 1
    rw [show (pre ++ '=' :: ' ' :: a) ++ '=' :: x :: b ++ tail = ((pre ++ '=' :: ' ' :: a) ++ ['=', x]) ++ (b ++ tail) by simp,
      List.drop_left' (by simp; omega), List.take_left' (by omega)]
  · intro e
    have := congrArg List.length e
    simp at this
    omega

/-- **C83, templates.** For a specialisation, written as the template's name, `<`, and the arguments, the name comes out; any
other name comes out unchanged. -/
theorem C83_template_base (base args name : List Char) (hb : '<' ∉ base) (hn : '<' ∉ name) :
    templateBase (base ++ '<' :: args) = base ∧ templateBase name = name := by
  have h : ∀ l : List Char, '<' ∉ l → ∀ x ∈ l, decide (x ≠ '<') = true := fun l h x hx => by
    simp only [decide_eq_true_eq]; exact fun e => h (e ▸ hx)
  unfold templateBase
  constructor
  · rw [List.takeWhile_append_of_pos (h base hb)]
    simp
  · have := List.takeWhile_append_of_pos (l₂ := []) (h name hn)
    simpa using this

/-- **C83, same template, partial.** Two specialisations, by name, of templates that are not members of specialisations are
recognised as being of the same template exactly if they are.  Missing: member types of specialisations
(`C83_member_type_violated`). -/
theorem C83_same_template_partial (b₁ a₁ b₂ a₂ : List Char) (h₁ : '<' ∉ b₁) (h₂ : '<' ∉ b₂) :
    isSameTemplate (b₁ ++ '<' :: a₁) (b₂ ++ '<' :: a₂) = true ↔ b₁ = b₂ := by
  unfold isSameTemplate
  rw [(C83_template_base b₁ a₁ b₁ h₁ h₁).1, (C83_template_base b₂ a₂ b₂ h₂ h₂).1]
  simp

/-- A type that is not a specialisation of any template is of the same template as itself. -/
theorem C83_not_a_template_violated (name : List Char) (h : '<' ∉ name) :
    isSameTemplate name name = true ∧ ∀ base args, name ≠ base ++ '<' :: args :=
  ⟨beq_self_eq_true _, fun base args e => h (by simp [e])⟩

/-- Specialisations of one template are not recognised if one of them is qualified: the name then begins with `const ` or `volatile `. -/
theorem C83_qualified_violated (qual base a₁ a₂ : List Char) (hq : '<' ∉ qual) (hb : '<' ∉ base) (hne : qual ≠ []) :
    isSameTemplate (qual ++ base ++ '<' :: a₁) (base ++ '<' :: a₂) = false := by
  have hqb : '<' ∉ qual ++ base := by simp [hq, hb]
  cases h : isSameTemplate (qual ++ base ++ '<' :: a₁) (base ++ '<' :: a₂) with
  | false => rfl
  | true =>
    have := congrArg List.length ((C83_same_template_partial (qual ++ base) a₁ base a₂ hqb hb).mp h)
    simp only [List.length_append] at this
    exact absurd (List.eq_nil_of_length_eq_zero (by omega)) hne

example : isSameTemplate "const V<int>".toList "V<int>".toList = false ∧ isSameTemplate "int".toList "int".toList = true := by decide

/-- A specialisation and every member type of every specialisation of that template, template or not, count as the same. -/
theorem C83_member_type_violated (base a₁ a₂ member : List Char) :
    isSameTemplate (base ++ '<' :: a₁) (base ++ '<' :: a₂ ++ member) = true := by
  unfold isSameTemplate templateBase
  have : ∀ r : List Char, (base ++ '<' :: r).takeWhile (fun x => decide (x ≠ '<')) = base.takeWhile (fun x => decide (x ≠ '<')) := by
    intro r
    induction base with
    | nil => simp
    | cons c base ih =>
      simp only [List.cons_append, List.takeWhile_cons]
      split
      · rw [ih]
      · rfl
  rw [List.append_assoc, List.cons_append, this, this]
  exact beq_self_eq_true _

example : typeAsString 2 "auto stdx::type_as_string() [Tag = std::pair<int, char>]".toList = .ok "std::pair<int, char>".toList := by decide
example : '<' ∉ "std::vector".toList ∧ '=' ∉ "std::pair<int, char>".toList := by decide
example : isSameTemplate "A<int>".toList "A<int>::B".toList = true := by decide

/-! ## C84 -/

/-- What precedes the value in the text of the compiler. -/
theorem qualStr_eq (pre val : List Char) (hv : '=' ∉ val) : qualStr (pre ++ '=' :: ' ' :: val ++ [']']) = .ok val := by
  unfold qualStr
  rw [if_neg (by simp; omega)]
  simp only
  have hf := findLastOf_last pre (' ' :: val ++ [']']) '=' (by simp [hv])
  rw [show pre ++ '=' :: ' ' :: val ++ [']'] = pre ++ '=' :: (' ' :: val ++ [']']) by simp, hf]
  simp only
  unfold substr
  rw [if_neg (by simp), if_pos (by simp; omega)]
  congr 1
  rw [show pre ++ '=' :: (' ' :: val ++ [']']) = (pre ++ ['=', ' ']) ++ (val ++ [']']) by simp, List.drop_left' (by simp),
    List.take_left' (by simp; omega)]

/-- A name as there are: no colon, parenthesis or equals sign. -/
def Ident (s : List Char) : Prop := ':' ∉ s ∧ ')' ∉ s ∧ '=' ∉ s

/-- **C84, enumerators, partial.** An enumerator printed with any qualification in which each closing parenthesis is followed
by a colon, and with no equals sign, gives its unqualified name.  Missing: other scopes
(`C84_parenthesis_violated`, and an equals sign). -/
theorem C84_enumerator_partial (pre scope name : List Char) (hs : '=' ∉ scope) (hn : Ident name)
    (hp : ∀ a b, scope = a ++ ')' :: b → ∃ b', b ++ [':'] = ':' :: b') :
    enumAsString (pre ++ '=' :: ' ' :: (scope ++ ':' :: name) ++ [']']) = .ok name ∧
    enumAsString (pre ++ '=' :: ' ' :: name ++ [']']) = .ok name := by
  have hcolon : findLastOf (scope ++ ':' :: name) ':' = some scope.length := findLastOf_last _ _ _ hn.1
  have hdrop : (scope ++ ':' :: name).drop (scope.length + 1) = name := by
    rw [show scope ++ ':' :: name = (scope ++ [':']) ++ name by simp, List.drop_left' (by simp)]
  constructor
  · unfold enumAsString
    rw [qualStr_eq _ _ (by simp [hs, hn.2.2]), Outcome.ok_bind]
    unfold castStr
    simp only [hcolon, hdrop]
    by_cases hc : ')' ∈ scope
    · obtain ⟨a, b, he, hb⟩ : ∃ a b, scope = a ++ ')' :: b ∧ ')' ∉ b := by
        clear hp hcolon hdrop hs
        induction scope with
        | nil => simp at hc
        | cons x xs ih =>
          by_cases hx : ')' ∈ xs
          · obtain ⟨a, b, h1, h2⟩ := ih hx
            exact ⟨x :: a, b, by rw [h1]; rfl, h2⟩
          · rcases List.mem_cons.mp hc with h | h
            · exact ⟨[], xs, by rw [← h]; rfl, hx⟩
            · exact absurd h hx
      obtain ⟨b', hb'⟩ := hp a b he
      have hl : findLastOf (scope ++ ':' :: name) ')' = some a.length := by
        rw [he, show a ++ ')' :: b ++ ':' :: name = a ++ ')' :: (b ++ ':' :: name) by simp]
        exact findLastOf_last _ _ _ (by simp [hb, hn.2.1])
      have hg : (scope ++ ':' :: name)[a.length + 1]? = some ':' := by
        rw [he, show a ++ ')' :: b ++ ':' :: name = (a ++ [')']) ++ ((b ++ [':']) ++ name) by simp, hb',
          List.getElem?_append_right (by simp)]
        simp
      simp only [hl, hg]
      rfl
    · have hl : findLastOf (scope ++ ':' :: name) ')' = none := findLastOf_none _ _ (by simp [hc, hn.2.1])
      simp only [hl]
  · unfold enumAsString
    rw [qualStr_eq _ _ hn.2.2, Outcome.ok_bind]
    unfold castStr
    rw [findLastOf_none _ _ hn.2.1, findLastOf_none _ _ hn.1]

/-- **C84, other values.** A value that is no enumerator, printed as a cast of a number, gives that whole text. -/
theorem C84_cast (pre ty digits : List Char) (d : Char) (ht : '=' ∉ ty) (hd : Ident (d :: digits)) :
    enumAsString (pre ++ '=' :: ' ' :: ('(' :: ty ++ ')' :: d :: digits) ++ [']']) = .ok ('(' :: ty ++ ')' :: d :: digits) := by
  have hdc : d ≠ ':' := fun e => hd.1 (by simp [e])
  unfold enumAsString
  rw [qualStr_eq _ _ (by simp [ht]; exact ⟨fun e => hd.2.2 (by simp [← e]), fun e => hd.2.2 (by simp [e])⟩), Outcome.ok_bind]
  unfold castStr
  have hl : findLastOf ('(' :: ty ++ ')' :: d :: digits) ')' = some ('(' :: ty).length := findLastOf_last _ _ _ hd.2.1
  have hg : ('(' :: ty ++ ')' :: d :: digits)[('(' :: ty).length + 1]? = some d := by
    rw [List.getElem?_append_right (by omega)]
    rw [Nat.add_sub_cancel_left]
    rfl
  simp only [hl, hg]
  rw [if_pos hdc]

/-- An enumerator whose last closing parenthesis is not followed by a colon — one in a function's lambda, as GCC prints it —
comes out with all its qualification. -/
theorem C84_parenthesis_violated (pre a b name : List Char) (x : Char) (hx : x ≠ ':') (ha : '=' ∉ a) (hb : ')' ∉ x :: b ∧ '=' ∉ x :: b)
    (hn : Ident name) :
    enumAsString (pre ++ '=' :: ' ' :: (a ++ ')' :: x :: b ++ ':' :: name) ++ [']']) = .ok (a ++ ')' :: x :: b ++ ':' :: name) := by
  unfold enumAsString
  rw [qualStr_eq, Outcome.ok_bind]
  · unfold castStr
    have hl : findLastOf (a ++ ')' :: x :: b ++ ':' :: name) ')' = some a.length := by
      rw [show a ++ ')' :: x :: b ++ ':' :: name = a ++ ')' :: (x :: b ++ ':' :: name) by simp]
      refine findLastOf_last _ _ _ ?_
      intro h
      rcases List.mem_append.mp h with h | h
      · exact hb.1 h
      · rcases List.mem_cons.mp h with h | h
        · exact absurd h (by decide)
        · exact hn.2.1 h
    have hg : (a ++ ')' :: x :: b ++ ':' :: name)[a.length + 1]? = some x := by
      rw [show a ++ ')' :: x :: b ++ ':' :: name = (a ++ [')']) ++ (x :: b ++ ':' :: name) by simp, List.getElem?_append_right (by simp)]
      simp
    simp only [hl, hg]
    rw [if_pos hx]
  · intro h
    rcases List.mem_append.mp h with h | h
    · rcases List.mem_append.mp h with h | h
      · exact ha h
      · rcases List.mem_cons.mp h with h | h
        · exact absurd h (by decide)
        · exact hb.2 h
    · rcases List.mem_cons.mp h with h | h
      · exact absurd h (by decide)
      · exact hn.2.2 h

example : enumAsString "auto f() [Value = (anonymous namespace)::E::Y]".toList = .ok "Y".toList := by decide
example : enumAsString "auto f() [Value = (C)17]".toList = .ok "(C)17".toList := by decide
example : enumAsString "auto f() [with auto Value = main()::<lambda()>::E::A]".toList = .ok "main()::<lambda()>::E::A".toList := by decide
example : ∀ a b, "(anonymous namespace)::E:".toList = a ++ ')' :: b → ∃ b', b ++ [':'] = ':' :: b' := by
  intro a b h
  have h1 : a.length = 20 := by
    have hg := congrArg (fun l : List Char => l[a.length]?) h
    simp only [List.getElem?_append_right (Nat.le_refl _), Nat.sub_self, List.getElem?_cons_zero] at hg
    have hlt : a.length < 25 := by
      have := congrArg List.length h
      simp at this
      omega
    revert hg
    generalize a.length = n at hlt
    intro hg
    have : ∀ n < 25, "(anonymous namespace)::E:".toList[n]? = some ')' → n = 20 := by decide
    exact this n hlt hg
  have h2 : ("(anonymous namespace)::E:".toList).drop 21 = b := by
    rw [h, show a ++ ')' :: b = (a ++ [')']) ++ b by simp, List.drop_left' (by simp [h1])]
  rw [← h2]
  exact ⟨_, rfl⟩

end Verif.TypeName
