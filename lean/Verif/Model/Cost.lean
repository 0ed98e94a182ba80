import Verif.Model.Fixity
/-
How much work resolving is. The definitions of `Model/Fixity` again, counting how often two fixities
are compared, and how many nodes of expressions are copied. (Patterns and names inside nodes are not
counted, nor are lookups in the table.)
-/
namespace Pemdas

/-- Something that was calculated, with the number of calls of `Rule::from_fixities` (fixity.rs:284)
and the number of nodes that `expr.clone()` (fixity.rs:539) made. -/
structure Counted (α : Type) where
  compared : Nat
  copied : Nat
  result : α

namespace Counted

/-- One after the other, the second unless the first fails. -/
def bind {α β ε : Type} (x : Counted (Except ε α)) (f : α → Counted (Except ε β)) :
    Counted (Except ε β) :=
  match x.result with
  | .ok a => ⟨x.compared + (f a).compared, x.copied + (f a).copied, (f a).result⟩
  | .error e => ⟨x.compared, x.copied, .error e⟩

/-- Nothing to do. -/
def pure {α ε : Type} (a : α) : Counted (Except ε α) := ⟨0, 0, .ok a⟩

end Counted

namespace Fixities

/-- The inner `loop` of `rewrite` (fixity.rs:282-301). -/
def placeC (m : Fixities) (infx : Infix) :
    List Expr → List Infix → Counted (Except Panic (Except AssocError (List Expr × List Infix)))
  | operands, [] => ⟨0, 0, .ok (.ok (operands, [infx]))⟩
  | operands, prev :: rest =>
    match Rule.fromFixities (m.get prev) (m.get infx) with
    | .shift => ⟨1, 0, .ok (.ok (operands, infx :: prev :: rest))⟩
    | .reduce =>
      match reduceTop prev operands with
      | .error p => ⟨1, 0, .error p⟩
      | .ok operands =>
        let x := placeC m infx operands rest
        ⟨1 + x.compared, x.copied, x.result⟩
    | .ambiguous pf cf => ⟨1, 0, .ok (.error ⟨(prev, pf), (infx, cf)⟩)⟩

/-- The outer `loop` of `rewrite` (fixity.rs:277-313). -/
def rewriteLoopC (m : Fixities) :
    List Expr → List Infix → Expr → Counted (Except Panic (Except AssocError Expr))
  | operands, infixes, .bin left infx right =>
    let x := placeC m infx (left :: operands) infixes
    match x.result with
    | .error p => ⟨x.compared, x.copied, .error p⟩
    | .ok (.error e) => ⟨x.compared, x.copied, .ok (.error e)⟩
    | .ok (.ok (operands, infixes)) =>
      let y := rewriteLoopC m operands infixes right
      ⟨x.compared + y.compared, x.copied + y.copied, y.result⟩
  | operands, infixes, right =>
    match finish operands infixes right with
    | .error p => ⟨0, 0, .error p⟩
    | .ok e => ⟨0, 0, .ok (.ok e)⟩

/-- `rewrite(expr.clone())` (fixity.rs:539, 274-314). -/
def rewriteC (m : Fixities) (e : Expr) : Counted (Except Panic (Except AssocError Expr)) :=
  let x := rewriteLoopC m [] [] e
  ⟨x.compared, e.size + x.copied, x.result⟩

end Fixities

namespace Resolver
open Counted

/-- Result of visiting, counted. -/
abbrev VisitC := Counted (Except Stop (Resolver × Expr))

/-- `for_each` over the elements of a `Vec<Expr>` in `walk_expr_mut` (ast.rs:475). -/
def walkListC (v : Resolver → Expr → VisitC) :
    Resolver → List Expr → Counted (Except Stop (Resolver × List Expr))
  | r, [] => .pure (r, [])
  | r, e :: es => (v r e).bind fun x => (walkListC v x.1 es).bind fun y => .pure (y.1, x.2 :: y.2)

/-- `walk_expr_mut` (ast.rs:462-479). -/
def walkExprC (v : Resolver → Expr → VisitC) (r : Resolver) : Expr → VisitC
  | .lit l => .pure (r, .lit l)
  | .var i => .pure (r, .var i)
  | .app f x => (v r f).bind fun y => (v y.1 x).bind fun z => .pure (z.1, .app y.2 z.2)
  | .bin a op b => (v r a).bind fun y => (v y.1 b).bind fun z => .pure (z.1, .bin y.2 op z.2)
  | .lam p b => (v r b).bind fun y => .pure (y.1, .lam p y.2)
  | .grp e => (v r e).bind fun y => .pure (y.1, .grp y.2)
  | .neg e => (v r e).bind fun y => .pure (y.1, .neg y.2)
  | .tup es => (walkListC v r es).bind fun y => .pure (y.1, .tup y.2)
  | .list es => (walkListC v r es).bind fun y => .pure (y.1, .list y.2)
  | .let_ d b => (v r b).bind fun y => .pure (y.1, .let_ d y.2)

/-- `Resolver::visit_expr_mut` (fixity.rs:535-569). -/
def visitNC : Nat → Resolver → Expr → VisitC
  | 0, _, _ => ⟨0, 0, .error .fuel⟩
  | n + 1, r, e =>
    match e with
    | .bin .. =>
      let x := r.fixities.rewriteC e
      match x.result with
      | .error p => ⟨x.compared, x.copied, .error (.panic p)⟩
      | .ok (.ok e') =>
        let y := walkExprC (visitNC n) r e'
        ⟨x.compared + y.compared, x.copied + y.copied, y.result⟩
      | .ok (.error err) => ⟨x.compared, x.copied, .ok (r.storeError err, e)⟩
    | .let_ d body =>
      let (olds, m) := insertLocal d.fixity d.infixes r.fixities
      (visitNC n { r with fixities := m } body).bind fun x =>
        .pure ({ x.1 with fixities := restore olds x.1.fixities }, .let_ d x.2)
    | e => walkExprC (visitNC n) r e

/-- `Resolver::visit_expr_mut` (fixity.rs:535-569). -/
def visitC (r : Resolver) (e : Expr) : VisitC := visitNC e.size r e

/-- `Resolver::visit_ast_mut` (fixity.rs:571-577) with `walk_ast_mut` (ast.rs:432-439). -/
def visitAstC (r : Resolver) (a : Ast) : Counted (Except Stop (Resolver × Ast)) :=
  let r := { r with fixities := loadDecls r.fixities a.infxs }
  (walkListC visitC r a.exprs).bind fun x => .pure (x.1, { a with exprs := x.2 })

end Resolver
end Pemdas
