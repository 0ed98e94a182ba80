import Verif.Model.Ast
/-
Specification of what it means for an infix expression to be grouped according to
fixities.  Nothing here refers to the resolver.
-/
namespace Pemdas

/-- An assignment of fixities to operators. -/
abbrev Env := Infix → Fixity

/-- `child` may stand directly under `parent` on its left: it binds tighter, or equally
tight with both operators left-associative. -/
def LeftOk (child parent : Fixity) : Prop :=
  child.prec > parent.prec ∨
  (child.prec = parent.prec ∧ child.assoc = .left ∧ parent.assoc = .left)

/-- `child` may stand directly under `parent` on its right: it binds tighter, or equally
tight with both operators right-associative. -/
def RightOk (child parent : Fixity) : Prop :=
  child.prec > parent.prec ∨
  (child.prec = parent.prec ∧ child.assoc = .right ∧ parent.assoc = .right)

/-- A grouping of an operator chain: a binary tree with operands at the leaves. -/
inductive OpTree where
  | leaf (e : Expr)
  | node (l : OpTree) (op : Infix) (r : OpTree)
  deriving DecidableEq

namespace OpTree

/-- The expression a grouping denotes. -/
def toExpr : OpTree → Expr
  | leaf e => e
  | node l op r => .bin l.toExpr op r.toExpr

/-- Operands, left to right. -/
def operands : OpTree → List Expr
  | leaf e => [e]
  | node l _ r => l.operands ++ r.operands

/-- Operators, left to right. -/
def operators : OpTree → List Infix
  | leaf _ => []
  | node l op r => l.operators ++ op :: r.operators

/-- The outermost operator. -/
def root : OpTree → Option Infix
  | leaf _ => none
  | node _ op _ => some op

/-- Every operator directly under another one is allowed there. -/
def WellGrouped (fx : Env) : OpTree → Prop
  | leaf _ => True
  | node l op r =>
    l.WellGrouped fx ∧ r.WellGrouped fx ∧
    (∀ o, l.root = some o → LeftOk (fx o) (fx op)) ∧
    (∀ o, r.root = some o → RightOk (fx o) (fx op))

end OpTree

/-- The operands of the chain that an expression's right spine spells out, in source order. -/
def Expr.chainOperands : Expr → List Expr
  | .bin l _ r => l :: r.chainOperands
  | e => [e]

/-- The operators of the chain that an expression's right spine spells out, in source order. -/
def Expr.chainOperators : Expr → List Infix
  | .bin _ op r => op :: r.chainOperators
  | _ => []

/-- `t` is a grouping of the chain spelled out by `e`. -/
def IsGrouping (e : Expr) (t : OpTree) : Prop :=
  t.operands = e.chainOperands ∧ t.operators = e.chainOperators

/-- Two fixities of equal precedence that do not agree on a direction. -/
def Clash (a b : Fixity) : Prop :=
  a.prec = b.prec ∧ ¬ (a.assoc = .left ∧ b.assoc = .left) ∧
  ¬ (a.assoc = .right ∧ b.assoc = .right)

/-- The operators `p` and `c` occur in this order in the chain `ops`, clash, and are
separated only by operators that bind strictly tighter. -/
def ClashIn (fx : Env) (ops : List Infix) (p c : Infix) : Prop :=
  ∃ pre mid post, ops = pre ++ p :: (mid ++ c :: post) ∧
    Clash (fx p) (fx c) ∧ ∀ q ∈ mid, (fx q).prec > (fx p).prec

/-- Same relative order of precedences and same associativities on a set of operators. -/
def SameOrder (fx fx' : Env) (ops : List Infix) : Prop :=
  (∀ a ∈ ops, ∀ b ∈ ops, (fx a).prec < (fx b).prec ↔ (fx' a).prec < (fx' b).prec) ∧
  ∀ a ∈ ops, (fx a).assoc = (fx' a).assoc

end Pemdas
