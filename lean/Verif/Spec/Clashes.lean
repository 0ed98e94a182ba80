import Verif.Spec.Resolve
import Verif.Model.Fixity
/-
Specification of the errors that resolving an expression reports: which one for a chain, and
which ones, in which order, for a whole expression.  Nothing here refers to the functions of
the resolver; `AssocError` is only the record the errors are stored in.
-/
namespace Pemdas

/-- `p` and `c` are the first two clashing operators of the chain: reading from the left, no
clash is complete before `c` is read, and `c` clashes with `p`. -/
def FirstClash (fx : Env) (ops : List Infix) (p c : Infix) : Prop :=
  ∃ pre mid post, ops = pre ++ p :: (mid ++ c :: post) ∧ Clash (fx p) (fx c) ∧
    (∀ q ∈ mid, (fx q).prec > (fx p).prec) ∧ ¬ ∃ p' c', ClashIn fx (pre ++ p :: mid) p' c'

/-- The error for the operators `p` and `c`. -/
def clashError (fx : Env) (p c : Infix) : AssocError := ⟨(p, fx p), (c, fx c)⟩

/-- `Resolves fx e e' es`: with the fixities `fx` in scope, the expression `e` becomes `e'` and
the errors `es` are met, in this order.  A chain with a clash stays entirely as it is written
and gives the one error for its first clash; any other chain is grouped as the fixities demand,
around its resolved operands. -/
inductive Resolves : Env → Expr → Expr → List AssocError → Prop where
  | lit {fx l} : Resolves fx (.lit l) (.lit l) []
  | var {fx i} : Resolves fx (.var i) (.var i) []
  | app {fx f f' x x' es es'} : Resolves fx f f' es → Resolves fx x x' es' →
      Resolves fx (.app f x) (.app f' x') (es ++ es')
  | lam {fx p b b' es} : Resolves fx b b' es → Resolves fx (.lam p b) (.lam p b') es
  | grp {fx b b' es} : Resolves fx b b' es → Resolves fx (.grp b) (.grp b') es
  | neg {fx b b' es} : Resolves fx b b' es → Resolves fx (.neg b) (.neg b') es
  | tup {fx xs} (zs : List (Expr × Expr × List AssocError)) : xs = zs.map (·.1) →
      (∀ z ∈ zs, Resolves fx z.1 z.2.1 z.2.2) →
      Resolves fx (.tup xs) (.tup (zs.map (·.2.1))) (zs.flatMap (·.2.2))
  | list {fx xs} (zs : List (Expr × Expr × List AssocError)) : xs = zs.map (·.1) →
      (∀ z ∈ zs, Resolves fx z.1 z.2.1 z.2.2) →
      Resolves fx (.list xs) (.list (zs.map (·.2.1))) (zs.flatMap (·.2.2))
  | let_ {fx d b b' es} : Resolves (fx.extend d) b b' es →
      Resolves fx (.let_ d b) (.let_ d b') es
  | ambiguous {fx l op r p c} : FirstClash fx (Expr.bin l op r).chainOperators p c →
      Resolves fx (.bin l op r) (.bin l op r) [clashError fx p c]
  | grouped {fx l op r} (t : OpTree) (zs : List (Expr × Expr × List AssocError)) :
      t.WellGrouped fx → t.operators = (Expr.bin l op r).chainOperators →
      (Expr.bin l op r).chainOperands = zs.map (·.1) → t.operands = zs.map (·.2.1) →
      (∀ z ∈ zs, Resolves fx z.1 z.2.1 z.2.2) →
      Resolves fx (.bin l op r) t.toExpr (zs.flatMap (·.2.2))

/-- The two errors are about the same operators with the same fixities. -/
def AssocError.Alike (a b : AssocError) : Prop :=
  a.prev.1.symbol = b.prev.1.symbol ∧ a.prev.2 = b.prev.2 ∧
  a.curr.1.symbol = b.curr.1.symbol ∧ a.curr.2 = b.curr.2

instance (a b : AssocError) : Decidable (a.Alike b) := by unfold AssocError.Alike; infer_instance

/-- Of errors that are alike, only the first is kept. -/
def firstOfEach : List AssocError → List AssocError
  | [] => []
  | e :: es => e :: (firstOfEach es).filter fun e' => ¬ e.Alike e'

/-- `Outermost fx e fx' e'`: `e'` is a sub-expression of `e` (where the fixities in scope are
`fx'`), and no ambiguous chain of `e` contains it, except perhaps `e'` itself. -/
inductive Outermost : Env → Expr → Env → Expr → Prop where
  | here {fx e} : Outermost fx e fx e
  | appL {fx f x fx' e'} : Outermost fx f fx' e' → Outermost fx (.app f x) fx' e'
  | appR {fx f x fx' e'} : Outermost fx x fx' e' → Outermost fx (.app f x) fx' e'
  | lam {fx p b fx' e'} : Outermost fx b fx' e' → Outermost fx (.lam p b) fx' e'
  | grp {fx b fx' e'} : Outermost fx b fx' e' → Outermost fx (.grp b) fx' e'
  | neg {fx b fx' e'} : Outermost fx b fx' e' → Outermost fx (.neg b) fx' e'
  | tup {fx es x fx' e'} : x ∈ es → Outermost fx x fx' e' → Outermost fx (.tup es) fx' e'
  | list {fx es x fx' e'} : x ∈ es → Outermost fx x fx' e' → Outermost fx (.list es) fx' e'
  | let_ {fx d b fx' e'} : Outermost (fx.extend d) b fx' e' → Outermost fx (.let_ d b) fx' e'
  | chain {fx l op r x fx' e'} : (¬ ∃ p c, ClashIn fx (Expr.bin l op r).chainOperators p c) →
      x ∈ (Expr.bin l op r).chainOperands → Outermost fx x fx' e' →
      Outermost fx (.bin l op r) fx' e'

end Pemdas
