import Verif.Spec.Resolve
/-
Specification: replacing the names in an expression by operands.
-/
namespace Pemdas

mutual
/-- The expression with every name (outside patterns) replaced. -/
def Expr.replaced (σ : Ident → Expr) : Expr → Expr
  | .lit l => .lit l
  | .var i => σ i
  | .app f x => .app (f.replaced σ) (x.replaced σ)
  | .bin l op r => .bin (l.replaced σ) op (r.replaced σ)
  | .lam p b => .lam p (b.replaced σ)
  | .grp e => .grp (e.replaced σ)
  | .neg e => .neg (e.replaced σ)
  | .tup es => .tup (Expr.replacedList σ es)
  | .list es => .list (Expr.replacedList σ es)
  | .let_ d b => .let_ d (b.replaced σ)
/-- The same for all elements. -/
def Expr.replacedList (σ : Ident → Expr) : List Expr → List Expr
  | [] => []
  | e :: es => e.replaced σ :: Expr.replacedList σ es
end

end Pemdas
