import Verif.Spec.Reprint
/-
Vocabulary for typing in what is shown.
-/
namespace Pemdas

/-- The expression without the `let`s it begins with. -/
def Expr.bare : Expr → Expr
  | .let_ _ b => b.bare
  | e => e

/-- A lambda. -/
def Expr.isLam : Expr → Bool
  | .lam _ _ => true
  | _ => false

mutual
/-- No lambda is inside an operand (`deep` says whether the expression is), lists and tuples aside; and no
lambda has a body that consists of a `let` with a lambda. -/
def Expr.Steady (deep : Bool) : Expr → Prop
  | .lit _ | .var _ | .neg _ => True
  | .app f x => f.Steady deep ∧ x.Steady deep
  | .bin l _ r => l.Steady true ∧ r.Steady true
  | .lam _ b => deep = false ∧ (b.bare.isLam = true → b.isLam = true) ∧ b.Steady deep
  | .grp e => e.Steady deep
  | .tup es => Expr.SteadyList es
  | .list es => Expr.SteadyList es
  | .let_ _ b => b.Steady deep
/-- `Steady` for all elements. -/
def Expr.SteadyList : List Expr → Prop
  | [] => True
  | e :: es => e.Steady false ∧ Expr.SteadyList es
end

end Pemdas
