import Verif.Spec.Resolve
import Verif.Model.Parser
/-
Vocabulary for what the parser produces.
-/
namespace Pemdas

/-- Expressions that can be an argument without parentheses. -/
def Expr.isArg : Expr → Bool
  | .lit _ | .var _ | .grp _ | .tup _ | .list _ => true
  | _ => false

mutual
/-- Chains of operators are nested to the right, applications have arguments that need no
parentheses and heads that are not infix, tuples do not have exactly one component, negations do
not occur. -/
def Expr.Parsed : Expr → Prop
  | .lit _ => True
  | .var _ => True
  | .app f x => f.NonBin ∧ x.isArg = true ∧ f.Parsed ∧ x.Parsed
  | .bin l _ r => l.NonBin ∧ l.Parsed ∧ r.Parsed
  | .lam _ b => b.Parsed
  | .grp e => e.Parsed
  | .neg _ => False
  | .tup es => es.length ≠ 1 ∧ Expr.ParsedList es
  | .list es => Expr.ParsedList es
  | .let_ _ b => b.Parsed
/-- `Parsed` for all elements. -/
def Expr.ParsedList : List Expr → Prop
  | [] => True
  | e :: es => e.Parsed ∧ Expr.ParsedList es
end

mutual
/-- The fixity declarations of all `let`s in an expression. -/
def Expr.lets : Expr → List InfixDecl
  | .lit _ => []
  | .var _ => []
  | .app f x => f.lets ++ x.lets
  | .bin l _ r => l.lets ++ r.lets
  | .lam _ b => b.lets
  | .grp e => e.lets
  | .neg e => e.lets
  | .tup es => Expr.letsList es
  | .list es => Expr.letsList es
  | .let_ d b => d :: b.lets
/-- `lets` of all elements. -/
def Expr.letsList : List Expr → List InfixDecl
  | [] => []
  | e :: es => e.lets ++ Expr.letsList es
end

/-- All fixity declarations in a program: those at the top level and those of `let`s. -/
def Ast.allDecls (a : Ast) : List InfixDecl := a.infxs ++ Expr.letsList a.exprs

/-- A keyword that starts a fixity declaration. -/
def Token.isFixityKeyword : Token → Bool
  | .infixL | .infixR | .infix_ => true
  | _ => false

end Pemdas
