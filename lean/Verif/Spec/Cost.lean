import Verif.Model.Fixity
/-
How many operators and nodes an expression has, and chains of one operator.
-/
namespace Pemdas

mutual
/-- How often operators are applied in an expression. -/
def Expr.operations : Expr → Nat
  | .lit _ | .var _ => 0
  | .app f x => f.operations + x.operations
  | .bin l _ r => l.operations + r.operations + 1
  | .lam _ e | .grp e | .neg e | .let_ _ e => e.operations
  | .tup es | .list es => Expr.operationsList es
def Expr.operationsList : List Expr → Nat
  | [] => 0
  | e :: es => e.operations + Expr.operationsList es
end

mutual
/-- How many nodes an expression has. -/
def Expr.nodes : Expr → Nat
  | .lit _ | .var _ => 1
  | .app f x => f.nodes + x.nodes + 1
  | .bin l _ r => l.nodes + r.nodes + 1
  | .lam _ e | .grp e | .neg e | .let_ _ e => e.nodes + 1
  | .tup es | .list es => Expr.nodesList es + 1
def Expr.nodesList : List Expr → Nat
  | [] => 0
  | e :: es => e.nodes + Expr.nodesList es
end

/-- `x op x op … op x` with `n` operators, the way the parser reads it. -/
def Expr.chainOf (x : Expr) (op : Infix) : Nat → Expr
  | 0 => x
  | n + 1 => .bin x op (Expr.chainOf x op n)

end Pemdas
