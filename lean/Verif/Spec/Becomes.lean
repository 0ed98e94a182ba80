import Verif.Spec.Clashes
/-
Specification of what resolving does to any expression, including what `let`s that name an operator
more than once leave behind. Nothing here refers to the resolver.
-/
namespace Pemdas

/-- The fixities after a `let` with declaration `d`, if they were `fx` before it and its body has left
`fx'`: operators that it does not name are as the body left them, operators that it names once are as
before, and operators that it names more than once keep the fixity it declares. -/
def Env.afterLet (fx : Env) (d : InfixDecl) (fx' : Env) : Env := fun op =>
  match d.times op with
  | 0 => fx' op
  | 1 => fx op
  | _ => d.fixity

mutual
/-- `Becomes fx e e' es fx'`: under the fixities `fx` the expression `e` becomes `e'`, the errors `es`
are met in this order, and the fixities `fx'` are left. A chain is grouped as the fixities before it
demand; then its two halves are treated as expressions of their own, one after the other. -/
inductive Becomes : Env → Expr → Expr → List AssocError → Env → Prop where
  | lit {fx l} : Becomes fx (.lit l) (.lit l) [] fx
  | var {fx i} : Becomes fx (.var i) (.var i) [] fx
  | app {fx f f' x x' es es' fx₁ fx₂} : Becomes fx f f' es fx₁ → Becomes fx₁ x x' es' fx₂ →
      Becomes fx (.app f x) (.app f' x') (es ++ es') fx₂
  | lam {fx p b b' es fx'} : Becomes fx b b' es fx' → Becomes fx (.lam p b) (.lam p b') es fx'
  | grp {fx b b' es fx'} : Becomes fx b b' es fx' → Becomes fx (.grp b) (.grp b') es fx'
  | neg {fx b b' es fx'} : Becomes fx b b' es fx' → Becomes fx (.neg b) (.neg b') es fx'
  | tup {fx xs xs' es fx'} : BecomeAll fx xs xs' es fx' → Becomes fx (.tup xs) (.tup xs') es fx'
  | list {fx xs xs' es fx'} : BecomeAll fx xs xs' es fx' → Becomes fx (.list xs) (.list xs') es fx'
  | let_ {fx d b b' es fx'} : Becomes (fx.extend d) b b' es fx' →
      Becomes fx (.let_ d b) (.let_ d b') es (fx.afterLet d fx')
  | ambiguous {fx l op r p c} : FirstClash fx (Expr.bin l op r).chainOperators p c →
      Becomes fx (.bin l op r) (.bin l op r) [clashError fx p c] fx
  | grouped {fx l op r s o t s' t' es es' fx₁ fx₂} : (OpTree.node s o t).WellGrouped fx →
      (OpTree.node s o t).operators = (Expr.bin l op r).chainOperators →
      (OpTree.node s o t).operands = (Expr.bin l op r).chainOperands →
      Becomes fx s.toExpr s' es fx₁ → Becomes fx₁ t.toExpr t' es' fx₂ →
      Becomes fx (.bin l op r) (.bin s' o t') (es ++ es') fx₂
/-- The same for expressions one after the other. -/
inductive BecomeAll : Env → List Expr → List Expr → List AssocError → Env → Prop where
  | nil {fx} : BecomeAll fx [] [] [] fx
  | cons {fx x x' xs xs' es es' fx₁ fx₂} : Becomes fx x x' es fx₁ → BecomeAll fx₁ xs xs' es' fx₂ →
      BecomeAll fx (x :: xs) (x' :: xs') (es ++ es') fx₂
end

end Pemdas
