import Verif.Spec.Resolve
import Verif.Spec.Chains
/-
Spec for C194: expressions read backwards. Every chain of operators is reversed, at every depth; nothing else is.
-/
namespace Pemdas

/-- A declaration with left and right exchanged. -/
def InfixDecl.mirror (d : InfixDecl) : InfixDecl := ⟨d.infixes, d.fixity.mirror⟩

mutual
/-- A part of a chain: what is inside is read backwards. -/
def Tok.mirror : Tok → Tok
  | .op o => .op o
  | .lit l => .lit l
  | .var i => .var i
  | .app f x => .app (Tok.backwards f) (Tok.backwards x)
  | .lam p b => .lam p (Tok.backwards b)
  | .grp e => .grp (Tok.backwards e)
  | .neg e => .neg (Tok.backwards e)
  | .tup es => .tup (Tok.eachBackwards es)
  | .list es => .list (Tok.eachBackwards es)
  | .let_ d b => .let_ d.mirror (Tok.backwards b)
/-- A chain read backwards. -/
def Tok.backwards : List Tok → List Tok
  | [] => []
  | t :: ts => Tok.backwards ts ++ [t.mirror]
/-- Elements stay in their places. -/
def Tok.eachBackwards : List (List Tok) → List (List Tok)
  | [] => []
  | x :: xs => Tok.backwards x :: Tok.eachBackwards xs
end

/-- The second expression is the first one read backwards, whatever the grouping. -/
def Backwards (e e' : Expr) : Prop := e'.toks = Tok.backwards e.toks

mutual
/-- The mirror image of a grouped expression: left and right operands are exchanged. -/
def Expr.mirror : Expr → Expr
  | .lit l => .lit l
  | .var i => .var i
  | .app f x => .app f.mirror x.mirror
  | .bin l op r => .bin r.mirror op l.mirror
  | .lam p b => .lam p b.mirror
  | .grp e => .grp e.mirror
  | .neg e => .neg e.mirror
  | .tup es => .tup (Expr.mirrors es)
  | .list es => .list (Expr.mirrors es)
  | .let_ d b => .let_ d.mirror b.mirror
/-- Of elements, each. -/
def Expr.mirrors : List Expr → List Expr
  | [] => []
  | e :: es => e.mirror :: Expr.mirrors es
end

end Pemdas
