import Verif.Spec.Reprint
/-
What is typed and what is shown for expressions without lambdas and `let`s.
-/
namespace Pemdas

mutual
/-- Expressions without lambdas, `let`s and negations. -/
def Expr.Formula : Expr → Prop
  | .lit _ => True
  | .var _ => True
  | .app f x => f.Formula ∧ x.Formula
  | .bin l _ r => l.Formula ∧ r.Formula
  | .grp e => e.Formula
  | .tup es => Expr.FormulaList es
  | .list es => Expr.FormulaList es
  | .lam _ _ | .neg _ | .let_ _ _ => False
/-- `Formula` for all elements. -/
def Expr.FormulaList : List Expr → Prop
  | [] => True
  | e :: es => e.Formula ∧ Expr.FormulaList es
end

section
variable [CharTables]

/-- In parentheses if it is an application or an infix expression. -/
def inOwnParens (e : Expr) (t : Text) : Text :=
  match e with
  | .app _ _ | .bin _ _ _ => t!"(" ++ t ++ t!")"
  | _ => t

mutual
/-- The text shown for such an expression: every operand of an infix operator that is an application
or an infix expression is in parentheses. -/
def Expr.printed : Expr → Text
  | .lit l => l.text
  | .var (.infix_ s) => t!"(" ++ s ++ t!")"
  | .var i => i.text
  | .app f x => f.printed ++ t!" " ++ x.printed
  | .bin l op r =>
    inOwnParens l l.printed ++ t!" " ++ op.text ++ t!" " ++ inOwnParens r r.printed
  | .grp e => t!"(" ++ e.printed ++ t!")"
  | .tup es => t!"(" ++ Expr.printedList es ++ t!")"
  | .list es => t!"[" ++ Expr.printedList es ++ t!"]"
  | .lam _ _ | .neg _ | .let_ _ _ => []
/-- The elements with commas between them. -/
def Expr.printedList : List Expr → Text
  | [] => []
  | [e] => e.printed
  | e :: es => e.printed ++ t!", " ++ Expr.printedList es
end

/-- The text typed for an expression: as little as possible is in parentheses. -/
def Expr.typed : Expr → Text
  | .lit l => l.text
  | .var i => i.text
  | .app f x => f.typed ++ t!" " ++ x.typed
  | .bin l op r => l.typed ++ t!" " ++ op.text ++ t!" " ++ r.typed
  | .grp e => t!"(" ++ e.typed ++ t!")"
  | _ => []

/-- Expressions that can be typed like that: names, numbers, characters and strings, applications to
arguments that need no parentheses, chains of such operands, parentheses. -/
def Expr.Typable : Expr → Prop
  | .lit l => l.Rereads
  | .var i => ∃ s, i = .lower s ∧ PlainName s
  | .app f x => f.NonBin ∧ x.isArg = true ∧ f.Typable ∧ x.Typable
  | .bin l op r => op.Rereads ∧ l.NonBin ∧ l.Typable ∧ r.Typable
  | .grp e => e.Typable
  | _ => False

end
end Pemdas
