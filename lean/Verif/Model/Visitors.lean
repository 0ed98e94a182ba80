import Verif.Model.Fixity
/-
Model of the traits `Visit` and `VisitMut` of `src/syntax/ast.rs` with their walks.

The `&mut self` of a visitor is a state `σ` that its method `visit_expr` changes; `visit_expr_mut`
changes the expression as well.  A method is a function of the state and the expression, so what is
stated here is about visitors whose methods return; `Resolver::visit_expr_mut`, the only implementation
in the code, is in `Model/Fixity.lean`.
-/
namespace Pemdas.Visitors

/-- `walk_expr` (ast.rs:441-460) with the method `visit_expr` of the visitor. -/
def walkExpr {σ : Type} (visit : σ → Expr → σ) (s : σ) : Expr → σ
  | .lit _ | .var _ => s
  | .app f x => visit (visit s f) x
  | .bin l _ r => visit (visit s l) r
  | .lam _ e => visit s e
  | .grp e | .neg e => visit s e
  | .tup xs | .list xs => xs.foldl visit s
  | .let_ _ b => visit s b

/-- `walk_ast` (ast.rs:423-430). -/
def walkAst {σ : Type} (visit : σ → Expr → σ) (s : σ) (a : Ast) : σ := a.exprs.foldl visit s

/-- `iter_mut().for_each(..)` (ast.rs:436-438,474-476). -/
def walkListMut {σ : Type} (visit : σ → Expr → σ × Expr) : σ → List Expr → σ × List Expr
  | s, [] => (s, [])
  | s, e :: es =>
    let (s, e) := visit s e
    let (s, es) := walkListMut visit s es
    (s, e :: es)

/-- `walk_expr_mut` (ast.rs:462-480) with the method `visit_expr_mut` of the visitor. -/
def walkExprMut {σ : Type} (visit : σ → Expr → σ × Expr) (s : σ) : Expr → σ × Expr
  | .lit l => (s, .lit l)
  | .var i => (s, .var i)
  | .app l r =>
    let (s, l) := visit s l
    let (s, r) := visit s r
    (s, .app l r)
  | .bin l op r =>
    let (s, l) := visit s l
    let (s, r) := visit s r
    (s, .bin l op r)
  | .lam p e => let (s, e) := visit s e; (s, .lam p e)
  | .grp e => let (s, e) := visit s e; (s, .grp e)
  | .neg e => let (s, e) := visit s e; (s, .neg e)
  | .tup xs => let (s, xs) := walkListMut visit s xs; (s, .tup xs)
  | .list xs => let (s, xs) := walkListMut visit s xs; (s, .list xs)
  | .let_ d b => let (s, b) := visit s b; (s, .let_ d b)

/-- `walk_ast_mut` (ast.rs:432-439). -/
def walkAstMut {σ : Type} (visit : σ → Expr → σ × Expr) (s : σ) (a : Ast) : σ × Ast :=
  let (s, es) := walkListMut visit s a.exprs
  (s, { a with exprs := es })

end Pemdas.Visitors
