import Verif.Macro.CxValue

/-!
# `STDX_IS_TYPE` and `CX_VALUE`  (C122)

The grammar of types and expressions is stated by relations, with no rule for which of two readings is taken.
-/

namespace Verif.CxValue

/-! ### Specification -/

mutual
/-- The text can be read as the type `T`. -/
inductive IsTy (Γ : Env) : Txt → Ty → Prop
  | name {n o} : Γ n = some (.type o) → IsTy Γ (.name n) (.named n o)
  | ptr {t T} : IsTy Γ t T → IsTy Γ (.ptr t) (.ptr T)
  | tmpl {n ts Ts} : Γ n = some .template → IsTys Γ ts Ts → IsTy Γ (.tmpl n ts) (.inst n Ts)
  | func {f R ts Ts} : IsTy Γ f R → IsTys Γ ts Ts → IsTy Γ (.call f ts) (.func R Ts)
/-- The texts can be read as types. -/
inductive IsTys (Γ : Env) : List Txt → List Ty → Prop
  | nil : IsTys Γ [] []
  | cons {t T ts Ts} : IsTy Γ t T → IsTys Γ ts Ts → IsTys Γ (t :: ts) (T :: Ts)
end

/-- A name or a template with arguments, not a pointer or function type. -/
def Plain : Txt → Prop
  | .name _ => True
  | .tmpl _ _ => True
  | _ => False

mutual
/-- The text can be read as an expression with the value `v`; `void` tells whether it has none. -/
inductive IsEx (Γ : Env) : Txt → Val → Bool → Prop
  | lit {z} : IsEx Γ (.lit z) (.lit z) false
  | var {n a c} : Γ n = some (.var a c) → IsEx Γ (.name n) (.var n) false
  | paren {t v b} : IsEx Γ t v b → IsEx Γ (.paren t) v b
  | con {f T ts vs} : Plain f → IsTy Γ f T → IsExs Γ ts vs → IsEx Γ (.call f ts) (.con T vs) false
  | brace {f T ts vs} : Plain f → IsTy Γ f T → IsExs Γ ts vs → IsEx Γ (.brace f ts) (.con T vs) false
  | app {n b c ts vs} : Γ n = some (.func b c) → IsExs Γ ts vs → IsEx Γ (.call (.name n) ts) (.app n vs) b
  | plus {x y v w} : IsEx Γ x v false → IsEx Γ y w false → IsEx Γ (.plus x y) (.plus v w) false
  | comma {x y v w a b} : IsEx Γ x v a → IsEx Γ y w b → IsEx Γ (.comma x y) w b
/-- The texts can be read as arguments. -/
inductive IsExs (Γ : Env) : List Txt → List Val → Prop
  | nil : IsExs Γ [] []
  | cons {t v ts vs} : IsEx Γ t v false → IsExs Γ ts vs → IsExs Γ (t :: ts) (v :: vs)
end

mutual
/-- A name with the property `P` occurs in the text as an operand or a function. -/
def Mentions (P : Nat → Prop) : Txt → Prop
  | .name n => P n
  | .lit _ => False
  | .ptr _ => False
  | .tmpl _ _ => False
  | .call f ts => Mentions P f ∨ MentionsAny P ts
  | .brace f ts => Mentions P f ∨ MentionsAny P ts
  | .paren t => Mentions P t
  | .plus a b => Mentions P a ∨ Mentions P b
  | .comma a b => Mentions P a ∨ Mentions P b
/-- In one of the texts. -/
def MentionsAny (P : Nat → Prop) : List Txt → Prop
  | [] => False
  | t :: ts => Mentions P t ∨ MentionsAny P ts
end

/-- A local variable that is not `constexpr`. -/
def Local (Γ : Env) (n : Nat) : Prop := ∃ c, Γ n = some (.var true c)

/-- A variable or function whose use is not a constant expression. -/
def Runtime (Γ : Env) (n : Nat) : Prop :=
  (∃ a, Γ n = some (.var a false)) ∨ ∃ b, Γ n = some (.func b false)

/-- Types an object can have; for names this is what the context says. -/
def Ty.Object : Ty → Prop
  | .named _ o => o = true
  | .func .. => False
  | _ => True

mutual
/-- A type followed by parentheses around nothing but further such texts: `T()`, `T(U())`, ... -/
inductive Vexing (Γ : Env) : Txt → Prop
  | mk {f T ts} : Plain f → IsTy Γ f T → Vexings Γ ts → Vexing Γ (.call f ts)
/-- All texts are like that. -/
inductive Vexings (Γ : Env) : List Txt → Prop
  | nil : Vexings Γ []
  | cons {t ts} : Vexing Γ t → Vexings Γ ts → Vexings Γ (t :: ts)
end

/-! ### The readings of the model -/

mutual
theorem asType_iff {Γ : Env} : ∀ (t : Txt) (T : Ty), asType Γ t = some T ↔ IsTy Γ t T
  | .name n, T => by
    simp only [asType]
    constructor
    · intro h
      split at h
      · rename_i o e; simp at h; subst h; exact .name e
      · simp at h
    · rintro (h | _ | _ | _); simp [h]
  | .lit z, T => by simp only [asType]; constructor <;> intro h <;> cases h
  | .ptr t, T => by
    simp only [asType, Option.map_eq_some_iff]
    constructor
    · rintro ⟨U, h, rfl⟩; exact .ptr ((asType_iff t U).mp h)
    · intro h; cases h with | ptr h => exact ⟨_, (asType_iff t _).mpr h, rfl⟩
  | .tmpl n ts, T => by
    simp only [asType]
    constructor
    · intro h
      split at h
      · rename_i e
        obtain ⟨Us, h1, rfl⟩ := Option.map_eq_some_iff.mp h
        exact .tmpl e ((asTypes_iff ts Us).mp h1)
      · simp at h
    · intro h
      cases h with | tmpl e h => simp [e, (asTypes_iff ts _).mpr h]
  | .call f ts, T => by
    simp only [asType]
    constructor
    · intro h
      split at h
      · rename_i r ps h1 h2
        simp at h; subst h
        exact .func ((asType_iff f r).mp h1) ((asTypes_iff ts ps).mp h2)
      · simp at h
    · intro h
      cases h with
      | func h1 h2 => simp [(asType_iff f _).mpr h1, (asTypes_iff ts _).mpr h2]
  | .brace f ts, T => by simp only [asType]; constructor <;> intro h <;> cases h
  | .paren t, T => by simp only [asType]; constructor <;> intro h <;> cases h
  | .plus a b, T => by simp only [asType]; constructor <;> intro h <;> cases h
  | .comma a b, T => by simp only [asType]; constructor <;> intro h <;> cases h
theorem asTypes_iff {Γ : Env} : ∀ (ts : List Txt) (Ts : List Ty),
    asTypes Γ ts = some Ts ↔ IsTys Γ ts Ts
  | [], Ts => by
    simp only [asTypes]
    constructor
    · intro h; simp at h; subst h; exact .nil
    · intro h; cases h; rfl
  | t :: ts, Ts => by
    simp only [asTypes]
    constructor
    · intro h
      split at h
      · rename_i x xs h1 h2
        simp at h; subst h
        exact .cons ((asType_iff t x).mp h1) ((asTypes_iff ts xs).mp h2)
      · simp at h
    · intro h
      cases h with
      | cons h1 h2 => simp [(asType_iff t _).mpr h1, (asTypes_iff ts _).mpr h2]
end

theorem simple_iff {Γ : Env} (f : Txt) (T : Ty) : simple Γ f = some T ↔ Plain f ∧ IsTy Γ f T := by
  cases f <;> simp [simple, Plain, asType_iff]

/-- A function is not a type. -/
theorem simple_func {Γ : Env} {n : Nat} {b c : Bool} (h : Γ n = some (.func b c)) :
    simple Γ (.name n) = none := by simp [simple, asType, h]

theorem called_iff {Γ : Env} (f : Txt) (n : Nat) (b k : Bool) :
    called Γ f = some (n, b, k) ↔ f = .name n ∧ Γ n = some (.func b k) := by
  cases f with
  | name m =>
    simp only [called]
    constructor
    · intro h
      split at h
      · rename_i e; simp at h; obtain ⟨rfl, rfl, rfl⟩ := h; exact ⟨rfl, e⟩
      · simp at h
    · rintro ⟨h, e⟩; simp at h; subst h; simp [e]
  | _ => simp [called]

mutual
theorem asExpr_iff {Γ : Env} : ∀ (t : Txt) (v : Val) (b : Bool),
    (∃ e, asExpr Γ t = some e ∧ e.val = v ∧ e.void = b) ↔ IsEx Γ t v b
  | .lit z, v, b => by
    simp only [asExpr]
    constructor
    · rintro ⟨e, h, rfl, rfl⟩; simp at h; subst h; exact .lit
    · intro h; cases h; exact ⟨_, rfl, rfl, rfl⟩
  | .name n, v, b => by
    simp only [asExpr]
    constructor
    · rintro ⟨e, h, rfl, rfl⟩
      split at h
      · rename_i e; simp at h; subst h; exact .var e
      · simp at h
    · intro h; cases h with | var e => simp [e]
  | .ptr t, v, b => by
    simp only [asExpr]
    constructor
    · rintro ⟨e, h, _⟩; simp at h
    · intro h; cases h
  | .tmpl n ts, v, b => by
    simp only [asExpr]
    constructor
    · rintro ⟨e, h, _⟩; simp at h
    · intro h; cases h
  | .paren t, v, b => by
    simp only [asExpr]
    constructor
    · intro h; exact .paren ((asExpr_iff t v b).mp h)
    · intro h; cases h with | paren h => exact (asExpr_iff t v b).mpr h
  | .call f ts, v, b => by
    simp only [asExpr]
    constructor
    · rintro ⟨e, h, rfl, rfl⟩
      split at h
      · rename_i T vs c a h1 h2
        simp at h; subst h
        obtain ⟨hp, ht⟩ := (simple_iff f T).mp h1
        exact .con hp ht ((asExprs_iff ts vs).mp ⟨c, a, h2⟩)
      · rename_i vs c a h1 h2
        split at h
        · rename_i n void k hn
          simp at h; subst h
          obtain ⟨rfl, hf⟩ := (called_iff f n void k).mp hn
          exact .app hf ((asExprs_iff ts vs).mp ⟨c, a, h2⟩)
        · simp at h
      · simp at h
    · intro h
      cases h with
      | con hp ht h =>
        obtain ⟨c, a, h⟩ := (asExprs_iff ts _).mpr h
        simp [(simple_iff f _).mpr ⟨hp, ht⟩, h]
      | app hn h =>
        obtain ⟨c, a, h⟩ := (asExprs_iff ts _).mpr h
        simp [simple_func hn, h, called, hn]
  | .brace f ts, v, b => by
    simp only [asExpr]
    constructor
    · rintro ⟨e, h, rfl, rfl⟩
      split at h
      · rename_i T vs c a h1 h2
        simp at h; subst h
        obtain ⟨hp, ht⟩ := (simple_iff f T).mp h1
        exact .brace hp ht ((asExprs_iff ts vs).mp ⟨c, a, h2⟩)
      · simp at h
    · intro h
      cases h with
      | brace hp ht h =>
        obtain ⟨c, a, h⟩ := (asExprs_iff ts _).mpr h
        simp [(simple_iff f _).mpr ⟨hp, ht⟩, h]
  | .plus x y, v, b => by
    simp only [asExpr]
    constructor
    · rintro ⟨e, h, rfl, rfl⟩
      split at h
      · rename_i p q h1 h2
        split at h
        · simp at h
        · rename_i hv
          simp at hv h; subst h
          exact .plus ((asExpr_iff x _ _).mp ⟨p, h1, rfl, hv.1⟩)
            ((asExpr_iff y _ _).mp ⟨q, h2, rfl, hv.2⟩)
      · simp at h
    · intro h
      cases h with
      | plus h1 h2 =>
        obtain ⟨p, e1, rfl, hp⟩ := (asExpr_iff x _ _).mpr h1
        obtain ⟨q, e2, rfl, hq⟩ := (asExpr_iff y _ _).mpr h2
        simp [e1, e2, hp, hq]
  | .comma x y, v, b => by
    simp only [asExpr]
    constructor
    · rintro ⟨e, h, rfl, rfl⟩
      split at h
      · rename_i p q h1 h2
        simp at h; subst h
        exact .comma ((asExpr_iff x _ _).mp ⟨p, h1, rfl, rfl⟩)
          ((asExpr_iff y _ _).mp ⟨q, h2, rfl, rfl⟩)
      · simp at h
    · intro h
      cases h with
      | comma h1 h2 =>
        obtain ⟨p, e1, _, _⟩ := (asExpr_iff x _ _).mpr h1
        obtain ⟨q, e2, rfl, rfl⟩ := (asExpr_iff y _ _).mpr h2
        simp [e1, e2]
theorem asExprs_iff {Γ : Env} : ∀ (ts : List Txt) (vs : List Val),
    (∃ c a, asExprs Γ ts = some (vs, c, a)) ↔ IsExs Γ ts vs
  | [], vs => by
    simp only [asExprs]
    constructor
    · rintro ⟨c, a, h⟩; simp at h; obtain ⟨rfl, _⟩ := h; exact .nil
    · intro h; cases h; simp
  | t :: ts, vs => by
    simp only [asExprs]
    constructor
    · rintro ⟨c, a, h⟩
      split at h
      · rename_i e ws c' a' h1 h2
        split at h
        · simp at h
        · rename_i hv
          simp at hv h
          obtain ⟨rfl, _⟩ := h
          exact .cons ((asExpr_iff t _ _).mp ⟨e, h1, rfl, hv⟩)
            ((asExprs_iff ts ws).mp ⟨_, _, h2⟩)
      · simp at h
    · intro h
      cases h with
      | cons h1 h2 =>
        obtain ⟨e, e1, rfl, hv⟩ := (asExpr_iff t _ _).mpr h1
        obtain ⟨c, a, e2⟩ := (asExprs_iff ts _).mpr h2
        simp [e1, e2, hv]
end

theorem plain_not_mentions {Γ : Env} {P : Nat → Prop} {f : Txt} {T : Ty}
    (hP : ∀ n o, Γ n = some (.type o) → ¬ P n) (hp : Plain f) (ht : IsTy Γ f T) :
    ¬ Mentions P f := by
  cases f with
  | name n => cases ht with | name e => simpa [Mentions] using hP n _ e
  | tmpl n ts => simp [Mentions]
  | _ => exact absurd hp (by simp [Plain])

mutual
theorem asExpr_flags {Γ : Env} : ∀ (t : Txt) (e : Ex), asExpr Γ t = some e →
    (e.automatic = true ↔ Mentions (Local Γ) t) ∧ (e.constant = false ↔ Mentions (Runtime Γ) t)
  | .lit z, e, h => by simp [asExpr] at h; subst h; simp [Mentions]
  | .name n, e, h => by
    simp only [asExpr] at h
    split at h
    · rename_i a c hn
      simp at h; subst h
      simp [Mentions, Local, Runtime, hn, eq_comm]
    · simp at h
  | .ptr t, e, h => by simp [asExpr] at h
  | .tmpl n ts, e, h => by simp [asExpr] at h
  | .paren t, e, h => by simp only [asExpr] at h; simpa [Mentions] using asExpr_flags t e h
  | .call f ts, e, h => by
    simp only [asExpr] at h
    split at h
    · rename_i T vs c a h1 h2
      simp at h; subst h
      obtain ⟨hp, ht⟩ := (simple_iff f T).mp h1
      have := asExprs_flags ts vs c a h2
      have n1 := plain_not_mentions (P := Local Γ) (by intro n o hn; simp [Local, hn]) hp ht
      have n2 := plain_not_mentions (P := Runtime Γ) (by intro n o hn; simp [Runtime, hn]) hp ht
      simpa [Mentions, n1, n2] using this
    · rename_i vs c a h1 h2
      split at h
      · rename_i n void k hn
        simp at h; subst h
        obtain ⟨rfl, hf⟩ := (called_iff f n void k).mp hn
        have := asExprs_flags ts vs c a h2
        have l1 : ¬ Local Γ n := by simp [Local, hf]
        have r1 : Runtime Γ n ↔ k = false := by simp [Runtime, hf]
        simp only [Mentions, l1, r1, false_or]
        refine ⟨this.1, ?_⟩
        rw [← this.2]
        cases c <;> cases k <;> simp
      · simp at h
    · simp at h
  | .brace f ts, e, h => by
    simp only [asExpr] at h
    split at h
    · rename_i T vs c a h1 h2
      simp at h; subst h
      obtain ⟨hp, ht⟩ := (simple_iff f T).mp h1
      have := asExprs_flags ts vs c a h2
      have n1 := plain_not_mentions (P := Local Γ) (by intro n o hn; simp [Local, hn]) hp ht
      have n2 := plain_not_mentions (P := Runtime Γ) (by intro n o hn; simp [Runtime, hn]) hp ht
      simpa [Mentions, n1, n2] using this
    · simp at h
  | .plus x y, e, h => by
    simp only [asExpr] at h
    split at h
    · rename_i p q h1 h2
      have f1 := asExpr_flags x p h1
      have f2 := asExpr_flags y q h2
      split at h
      · simp at h
      · simp at h; subst h
        simp only [Mentions, ← f1.1, ← f2.1, ← f1.2, ← f2.2, Bool.or_eq_true,
          Bool.and_eq_false_iff, and_self]
    · simp at h
  | .comma x y, e, h => by
    simp only [asExpr] at h
    split at h
    · rename_i p q h1 h2
      have f1 := asExpr_flags x p h1
      have f2 := asExpr_flags y q h2
      simp at h; subst h
      simp only [Mentions, ← f1.1, ← f2.1, ← f1.2, ← f2.2, Bool.or_eq_true,
        Bool.and_eq_false_iff, and_self]
    · simp at h
theorem asExprs_flags {Γ : Env} : ∀ (ts : List Txt) (vs : List Val) (c a : Bool),
    asExprs Γ ts = some (vs, c, a) →
    (a = true ↔ MentionsAny (Local Γ) ts) ∧ (c = false ↔ MentionsAny (Runtime Γ) ts)
  | [], vs, c, a, h => by simp [asExprs] at h; obtain ⟨_, rfl, rfl⟩ := h; simp [MentionsAny]
  | t :: ts, vs, c, a, h => by
    simp only [asExprs] at h
    split at h
    · rename_i e ws c' a' h1 h2
      have f1 := asExpr_flags t e h1
      have f2 := asExprs_flags ts ws c' a' h2
      split at h
      · simp at h
      · simp at h
        obtain ⟨_, rfl, rfl⟩ := h
        simp only [MentionsAny, ← f1.1, ← f2.1, ← f1.2, ← f2.2, Bool.or_eq_true,
          Bool.and_eq_false_iff, and_self]
    · simp at h
end

mutual
theorem both_iff {Γ : Env} : ∀ (t : Txt),
    ((∃ T, IsTy Γ t T) ∧ ∃ v b, IsEx Γ t v b) ↔ Vexing Γ t
  | .name n => by
    constructor
    · rintro ⟨⟨T, h⟩, v, b, h'⟩
      cases h with | name e => cases h' with | var e' => rw [e] at e'; simp at e'
    · intro h; cases h
  | .lit z => by
    constructor
    · rintro ⟨⟨T, h⟩, _⟩; cases h
    · intro h; cases h
  | .ptr t => by
    constructor
    · rintro ⟨_, v, b, h'⟩; cases h'
    · intro h; cases h
  | .tmpl n ts => by
    constructor
    · rintro ⟨_, v, b, h'⟩; cases h'
    · intro h; cases h
  | .brace f ts => by
    constructor
    · rintro ⟨⟨T, h⟩, _⟩; cases h
    · intro h; cases h
  | .paren t => by
    constructor
    · rintro ⟨⟨T, h⟩, _⟩; cases h
    · intro h; cases h
  | .plus x y => by
    constructor
    · rintro ⟨⟨T, h⟩, _⟩; cases h
    · intro h; cases h
  | .comma x y => by
    constructor
    · rintro ⟨⟨T, h⟩, _⟩; cases h
    · intro h; cases h
  | .call f ts => by
    constructor
    · rintro ⟨⟨T, h⟩, v, b, h'⟩
      cases h with
      | func h1 h2 =>
        cases h' with
        | con hp ht h3 => exact .mk hp ht ((boths_iff ts).mp ⟨⟨_, h2⟩, _, h3⟩)
        | app hn h3 => cases h1 with | name e => rw [e] at hn; simp at hn
    · intro h
      cases h with
      | mk hp ht h3 =>
        obtain ⟨⟨Ts, h4⟩, vs, h5⟩ := (boths_iff ts).mpr h3
        exact ⟨⟨_, .func ht h4⟩, _, _, .con hp ht h5⟩
theorem boths_iff {Γ : Env} : ∀ (ts : List Txt),
    ((∃ Ts, IsTys Γ ts Ts) ∧ ∃ vs, IsExs Γ ts vs) ↔ Vexings Γ ts
  | [] => ⟨fun _ => .nil, fun _ => ⟨⟨_, .nil⟩, _, .nil⟩⟩
  | t :: ts => by
    constructor
    · rintro ⟨⟨Ts, h⟩, vs, h'⟩
      cases h with
      | cons h1 h2 =>
        cases h' with
        | cons h3 h4 =>
          exact .cons ((both_iff t).mp ⟨⟨_, h1⟩, _, _, h3⟩) ((boths_iff ts).mp ⟨⟨_, h2⟩, _, h4⟩)
    · intro h
      cases h with
      | cons h1 h2 =>
        obtain ⟨⟨T, h3⟩, v, b, h4⟩ := (both_iff t).mpr h1
        obtain ⟨⟨Ts, h5⟩, vs, h6⟩ := (boths_iff ts).mpr h2
        have : b = false := by
          cases h1 with
          | mk hp ht _ =>
            cases h4 with
            | con => rfl
            | app hn => cases ht with | name e => rw [e] at hn; simp at hn
        subst this
        exact ⟨⟨_, .cons h3 h5⟩, _, .cons h4 h6⟩
end

/-! ### Properties -/

/-- **C122 (types).** A text that can be read as an object type is taken as that type: `STDX_IS_TYPE` is true and `CX_VALUE(t)()` is
the `type_identity` of it. -/
theorem C122_type {Γ : Env} {t : Txt} {T : Ty} (h : IsTy Γ t T) (ho : T.Object) :
    isType Γ t = some true ∧ cxValue Γ t = some (.type T) := by
  have h1 := (asType_iff t T).mpr h
  have hc : T.castable = true := by cases T <;> simp_all [Ty.Object, Ty.castable]
  have : isType Γ t = some true := by simp [isType, h1, hc]
  exact ⟨this, by simp [cxValue, this, h1]⟩

/-- **C122 (values), partial.** A text that can be read as an expression with a value, uses no local variable that is not `constexpr`
and is not `T()`, `T(U())`, ... is taken as that value: `STDX_IS_TYPE` is false, and `CX_VALUE(t)()` is the value, a constant
expression if nothing in the text is evaluated at run time.  The value of `a, b` is that of `b`.  Missing: `C122_vexing_violated`. -/
theorem C122_value_partial {Γ : Env} {t : Txt} {v : Val} (h : IsEx Γ t v false) (hl : ¬ Mentions (Local Γ) t)
    (hv : ¬ Vexing Γ t) :
    isType Γ t = some false ∧ ∃ c, cxValue Γ t = some (.value v c) ∧ (c = true ↔ ¬ Mentions (Runtime Γ) t) := by
  obtain ⟨e, h1, rfl, hv'⟩ := (asExpr_iff t v false).mpr h
  have h2 : asType Γ t = none := by
    cases h3 : asType Γ t with
    | none => rfl
    | some T => exact absurd ((both_iff t).mp ⟨⟨T, (asType_iff t T).mp h3⟩, _, _, h⟩) hv
  obtain ⟨f1, f2⟩ := asExpr_flags t e h1
  have ha : e.automatic = false := by
    cases hb : e.automatic
    · rfl
    · exact absurd (f1.mp hb) hl
  have : isType Γ t = some false := by simp [isType, h2, h1, hv']
  refine ⟨this, e.constant, by simp [cxValue, this, h1, ha], ?_⟩
  rw [← f2]; cases e.constant <;> simp

/-- **C122 fails for `T()`.** A constant expression of the form `T()`, or `T(U())` and so on, is read as a function type: neither
macro compiles, although `T{}` does. -/
theorem C122_vexing_violated {Γ : Env} {f : Txt} {ts : List Txt} {T : Ty} (hp : Plain f) (ht : IsTy Γ f T)
    (hs : Vexings Γ ts) :
    (∃ v, IsEx Γ (.call f ts) v false) ∧ isType Γ (.call f ts) = none ∧ cxValue Γ (.call f ts) = none ∧
      ∃ c, cxValue Γ (.brace f []) = some (.value (.con T []) c) := by
  obtain ⟨⟨Ts, h1⟩, vs, h2⟩ := (boths_iff ts).mpr hs
  have h3 := (asType_iff (.call f ts) _).mpr (.func ht h1)
  have h4 : isType Γ (.call f ts) = none := by simp [isType, h3, Ty.castable]
  have hm : ¬ Mentions (Local Γ) (.brace f []) := by
    simp only [Mentions, MentionsAny, or_false]
    exact plain_not_mentions (by intro n o hn; simp [Local, hn]) hp ht
  obtain ⟨_, c, h5, _⟩ := C122_value_partial (.brace hp ht .nil) hm (by rintro ⟨⟩)
  exact ⟨⟨_, .con hp ht h2⟩, h4, by simp [cxValue, h4], c, h5⟩

/-- **C122 (what does not compile).** Function types and other types `type_val` cannot be cast to, `void` expressions, texts that are
neither, and values that use a local variable that is not `constexpr`. -/
theorem C122_rejected {Γ : Env} (t : Txt) :
    (∀ T, IsTy Γ t T → ¬ T.Object → cxValue Γ t = none) ∧
    (∀ v, IsEx Γ t v true → cxValue Γ t = none) ∧
    ((¬ ∃ T, IsTy Γ t T) → (¬ ∃ v b, IsEx Γ t v b) → cxValue Γ t = none) ∧
    ((∃ v b, IsEx Γ t v b) → Mentions (Local Γ) t → cxValue Γ t = none) := by
  refine ⟨?_, ?_, ?_, ?_⟩
  · intro T h ho
    have h1 := (asType_iff t T).mpr h
    have hc : T.castable = false := by cases T <;> simp_all [Ty.Object, Ty.castable]
    simp [cxValue, isType, h1, hc]
  · intro v h
    obtain ⟨e, h1, rfl, hv'⟩ := (asExpr_iff t v true).mpr h
    cases h3 : asType Γ t with
    | none => simp [cxValue, isType, h3, h1, hv']
    | some T =>
      have hx := (both_iff t).mp ⟨⟨T, (asType_iff t T).mp h3⟩, _, _, h⟩
      have hT := (asType_iff t T).mp h3
      cases hx with
      | mk hp ht hs => cases hT with | func => simp [cxValue, isType, h3, Ty.castable]
  · intro h1 h2
    have h3 : asType Γ t = none := by
      cases h3 : asType Γ t with
      | none => rfl
      | some T => exact absurd ⟨T, (asType_iff t T).mp h3⟩ h1
    have h4 : asExpr Γ t = none := by
      cases h4 : asExpr Γ t with
      | none => rfl
      | some e => exact absurd ⟨e.val, e.void, (asExpr_iff t _ _).mp ⟨e, h4, rfl, rfl⟩⟩ h2
    simp [cxValue, isType, h3, h4]
  · rintro ⟨v, b, h⟩ hm
    obtain ⟨e, h1, _, _⟩ := (asExpr_iff t v b).mpr h
    have ha := (asExpr_flags t e h1).1.mpr hm
    cases h3 : asType Γ t with
    | none => cases hv : e.void <;> simp [cxValue, isType, h3, h1, ha, hv]
    | some T =>
      have hx := (both_iff t).mp ⟨⟨T, (asType_iff t T).mp h3⟩, _, _, h⟩
      have hT := (asType_iff t T).mp h3
      cases hx with
      | mk hp ht hs => cases hT with | func => simp [cxValue, isType, h3, Ty.castable]

/-- `0` is a type, `1` a template, `2` a constant, `3` a local variable, `4` a `constexpr` function, `5` a global variable. -/
def demo : Env := fun n =>
  [Entity.type true, .template, .var false true, .var true false, .func false true, .var false false][n]?

example : IsTy demo (.tmpl 1 [.name 0, .ptr (.name 0)]) (.inst 1 [.named 0 true, .ptr (.named 0 true)]) :=
  .tmpl rfl (.cons (.name rfl) (.cons (.ptr (.name rfl)) .nil))

example : IsEx demo (.comma (.lit 17) (.call (.name 4) [.name 2, .call (.name 0) []]))
    (.app 4 [.var 2, .con (.named 0 true) []]) false :=
  .comma .lit (.app rfl (.cons (.var rfl) (.cons (.con trivial (.name rfl) .nil) .nil)))

example : ¬ Mentions (Local demo) (.comma (.lit 17) (.call (.name 4) [.name 2, .call (.name 0) []])) := by
  simp [Mentions, MentionsAny, Local, demo]

example : Vexings demo [.call (.name 0) []] := .cons (.mk trivial (.name rfl) .nil) .nil

end Verif.CxValue
