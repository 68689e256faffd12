/-!
# Model of `STDX_IS_TYPE` and `CX_VALUE`  (/repo/include/stdx/utility.hpp)

The argument of the macros is a text that may be a type or an expression.  The texts modelled are names, literals, pointers,
templates with type arguments, calls, braces, parentheses, sums and comma expressions, of any depth.  Values are terms: what a
constructor, function or `+` computes is left open.  Simplifications: every constructor call and sum with arguments that are not
`void` is well-formed, every value can be copied, the types of values are object types, and no type has an `operator-` or
`operator+` that accepts every right operand.
-/

namespace Verif.CxValue

/-- What a name is where the macro is used (utility.hpp:316-341). -/
inductive Entity where
  /-- a type; `object` if `type_val` can be cast to it, as to an object type that is not abstract and not an array (classes with
  further constructors of one parameter are not modelled) -/
  | type (object : Bool)
  /-- a class template -/
  | template
  /-- a variable; `automatic` if it is a local variable that is not `constexpr` -/
  | var (automatic constant : Bool)
  /-- a function -/
  | func (void constant : Bool)
  deriving DecidableEq, Repr

/-- The text between the parentheses (utility.hpp:316-341). -/
inductive Txt where
  | name (n : Nat)
  | lit (z : Int)
  | ptr (t : Txt)
  | tmpl (n : Nat) (args : List Txt)
  | call (f : Txt) (args : List Txt)
  | brace (f : Txt) (args : List Txt)
  | paren (t : Txt)
  | plus (a b : Txt)
  | comma (a b : Txt)

/-- Types (utility.hpp:316-341). -/
inductive Ty where
  | named (n : Nat) (object : Bool)
  | ptr (t : Ty)
  | inst (n : Nat) (args : List Ty)
  | func (r : Ty) (ps : List Ty)

/-- Values, as terms (utility.hpp:316-341). -/
inductive Val where
  | lit (z : Int)
  | var (n : Nat)
  | con (t : Ty) (args : List Val)
  | app (n : Nat) (args : List Val)
  | plus (a b : Val)

/-- A well-formed expression: its value, whether it is `void`, whether it is a constant expression, and whether it uses a local
variable that is not `constexpr` (utility.hpp:316-341). -/
structure Ex where
  val : Val
  void : Bool
  constant : Bool
  automatic : Bool

/-- What names mean (utility.hpp:316-341). -/
abbrev Env := Nat → Option Entity

mutual
/-- The text as a type-id of the language, as in `(__VA_ARGS__)` at utility.hpp:318 if it is a cast: a call whose parts are
types is the type of a function. -/
def asType (Γ : Env) : Txt → Option Ty
  | .name n => match Γ n with
    | some (.type o) => some (.named n o)
    | _ => none
  | .ptr t => (asType Γ t).map .ptr
  | .tmpl n args => match Γ n with
    | some .template => (asTypes Γ args).map (.inst n)
    | _ => none
  | .call f args => match asType Γ f, asTypes Γ args with
    | some r, some ps => some (.func r ps)
    | _, _ => none
  | _ => none
/-- A list of type-ids, as in the arguments of a template or the parameters of a function (utility.hpp:318). -/
def asTypes (Γ : Env) : List Txt → Option (List Ty)
  | [] => some []
  | t :: ts => match asType Γ t, asTypes Γ ts with
    | some x, some xs => some (x :: xs)
    | _, _ => none
end

/-- A type that can be followed by parentheses or braces in an expression of the language (utility.hpp:318): a name or a template with arguments. -/
def simple (Γ : Env) : Txt → Option Ty
  | .name n => asType Γ (.name n)
  | .tmpl n args => asType Γ (.tmpl n args)
  | _ => none

/-- A name of a function (utility.hpp:318), with what `func` says of it. -/
def called (Γ : Env) : Txt → Option (Nat × Bool × Bool)
  | .name n => match Γ n with
    | some (.func void k) => some (n, void, k)
    | _ => none
  | _ => none

mutual
/-- The text as an expression of the language, as in `(__VA_ARGS__)` at utility.hpp:318 if it is an operand. -/
def asExpr (Γ : Env) : Txt → Option Ex
  | .lit z => some ⟨.lit z, false, true, false⟩
  | .name n => match Γ n with
    | some (.var a c) => some ⟨.var n, false, c, a⟩
    | _ => none
  | .paren t => asExpr Γ t
  | .call f args => match simple Γ f, asExprs Γ args with
    | some t, some (vs, c, a) => some ⟨.con t vs, false, c, a⟩
    | none, some (vs, c, a) =>
      match called Γ f with
      | some (n, void, k) => some ⟨.app n vs, void, c && k, a⟩
      | none => none
    | _, _ => none
  | .brace f args => match simple Γ f, asExprs Γ args with
    | some t, some (vs, c, a) => some ⟨.con t vs, false, c, a⟩
    | _, _ => none
  | .plus x y => match asExpr Γ x, asExpr Γ y with
    | some p, some q =>
      if p.void || q.void then none
      else some ⟨.plus p.val q.val, false, p.constant && q.constant, p.automatic || q.automatic⟩
    | _, _ => none
  | .comma x y => match asExpr Γ x, asExpr Γ y with
    | some p, some q => some ⟨q.val, q.void, p.constant && q.constant, p.automatic || q.automatic⟩
    | _, _ => none
  | _ => none
/-- A list of arguments: their values, whether all are constant, and whether one uses a local variable (utility.hpp:318). -/
def asExprs (Γ : Env) : List Txt → Option (List Val × Bool × Bool)
  | [] => some ([], true, false)
  | t :: ts => match asExpr Γ t, asExprs Γ ts with
    | some e, some (vs, c, a) =>
      if e.void then none else some (e.val :: vs, e.constant && c, e.automatic || a)
    | _, _ => none
end

/-- Whether `(T) - type_val{}` (utility.hpp:318) is a valid cast: through the conversion operator of `type_val`, utility.hpp:215-222, to an object type. -/
def Ty.castable : Ty → Bool
  | .named _ o => o
  | .ptr _ => true
  | .inst .. => true
  | .func .. => false

/-- `STDX_IS_TYPE`, utility.hpp:316-320; `none` if it does not compile.  A text that can be a type-id is one: it is then a cast of
`-type_val{}` to that type.  Otherwise it is the left operand of the binary `-` of utility.hpp:208-211. -/
def isType (Γ : Env) (t : Txt) : Option Bool :=
  match asType Γ t with
  | some T => if T.castable then some true else none
  | none =>
    match asExpr Γ t with
    | some e => if e.void then none else some false
    | none => none

/-- What calling the result of `CX_VALUE` gives: a `type_identity`, or a value that may be a constant expression (utility.hpp:322-341). -/
inductive Res where
  | type (t : Ty)
  | value (v : Val) (constant : Bool)

/-- `CX_VALUE(t)()`, utility.hpp:322-341; `none` if it does not compile.  The lambdas have no captures, so no local variables that are not
`constexpr` can be used.  `(__VA_ARGS__) + type_val{}` is the operand itself, utility.hpp:202-205. -/
def cxValue (Γ : Env) (t : Txt) : Option Res :=
  match isType Γ t with
  | some true => (asType Γ t).map .type
  | some false =>
    match asExpr Γ t with
    | some e => if e.automatic then none else some (.value e.val e.constant)
    | none => none
  | none => none

end Verif.CxValue
