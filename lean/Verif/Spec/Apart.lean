import Verif.Spec.Resolve
/-
Specification: declarations of several operators, one operator at a time.
-/
namespace Pemdas

/-- The declarations of the operators of a declaration one by one. -/
def InfixDecl.singly (d : InfixDecl) : List InfixDecl := d.infixes.map fun o => ⟨[o], d.fixity⟩

/-- One `let` for each of the operators, the first one outermost. -/
def letEach (f : Fixity) : List Infix → Expr → Expr
  | [], e => .let_ ⟨[], f⟩ e
  | [o], e => .let_ ⟨[o], f⟩ e
  | o :: os, e => .let_ ⟨[o], f⟩ (letEach f os e)

mutual
/-- The expression with each of its `let`s replaced by one `let` for each operator. -/
def Expr.apart : Expr → Expr
  | .lit l => .lit l
  | .var i => .var i
  | .app f x => .app f.apart x.apart
  | .bin l op r => .bin l.apart op r.apart
  | .lam p b => .lam p b.apart
  | .grp e => .grp e.apart
  | .neg e => .neg e.apart
  | .tup es => .tup (Expr.apartList es)
  | .list es => .list (Expr.apartList es)
  | .let_ d b => letEach d.fixity d.infixes b.apart
/-- The same for expressions one by one. -/
def Expr.apartList : List Expr → List Expr
  | [] => []
  | e :: es => e.apart :: Expr.apartList es
end

end Pemdas
