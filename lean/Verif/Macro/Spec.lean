import Verif.Macro.Model

/-! # Conditions as their author means them: a tree of brackets -/

namespace Verif.Macro

/-- Source text with its brackets matched: `angle` is a list of template arguments. -/
inductive Src where
  | nil
  | word (s : String) (rest : Src)
  | str (s : String) (rest : Src)
  | greater (rest : Src)
  | shift (rest : Src)
  | comma (rest : Src)
  | par (inner rest : Src)
  | sq (inner rest : Src)
  | brace (inner rest : Src)
  | angle (inner rest : Src)
  deriving Repr

namespace Src

/-- The tokens of the text. -/
def toks : Src → List Tok
  | nil => []
  | word s r => .word s :: r.toks
  | str s r => .str s :: r.toks
  | greater r => .gt :: r.toks
  | shift r => .shr :: r.toks
  | comma r => .comma :: r.toks
  | par i r => .lpar :: (i.toks ++ .rpar :: r.toks)
  | sq i r => .lsq :: (i.toks ++ .rsq :: r.toks)
  | brace i r => .lbrace :: (i.toks ++ .rbrace :: r.toks)
  | angle i r => .langle :: (i.toks ++ .gt :: r.toks)

/-- A `>` or `>>` outside all brackets. -/
def Greater : Src → Prop
  | nil => False
  | greater _ | shift _ => True
  | word _ r | str _ r | comma r | par _ r | sq _ r | brace _ r | angle _ r => r.Greater

/-- A comma that is not inside parentheses (it may be inside other brackets). -/
def Comma : Src → Prop
  | nil => False
  | comma _ => True
  | word _ r | str _ r | greater r | shift r | par _ r => r.Comma
  | sq i r | brace i r | angle i r => i.Comma ∨ r.Comma

/-- The first comma that is not inside parentheses is inside other brackets. -/
def InnerComma : Src → Prop
  | nil => False
  | comma _ => False
  | word _ r | str _ r | greater r | shift r | par _ r => r.InnerComma
  | sq i r | brace i r | angle i r => i.Comma ∨ r.InnerComma

/-- C++ text: in a list of template arguments, an operator `>` or `>>` is in brackets. -/
def Proper : Src → Prop
  | nil => True
  | word _ r | str _ r | greater r | shift r | comma r => r.Proper
  | par i r | sq i r | brace i r => i.Proper ∧ r.Proper
  | angle i r => i.Proper ∧ ¬ i.Greater ∧ r.Proper

end Src

/-- The specification of `STATIC_ASSERT`: what `static_assert` with the condition and the formatted message would do. -/
def Spec.assert : Option Value → Option (List Char) → Result
  | some (.bool true), some _ => .passes
  | some (.bool false), some m => .fails m
  | _, _ => .error

end Verif.Macro
