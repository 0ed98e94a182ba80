import Verif.Model.Fixity
/-
Programs that differ in names only: operators, variables, literals and patterns are replaced
throughout, in expressions, declarations, tables and errors.
-/
namespace Pemdas

/-- What to write for each operator, literal, variable and pattern. -/
structure Renaming where
  op : Infix → Infix
  lit : Literal → Literal
  var : Ident → Ident
  pat : Pat → Pat

namespace Renaming

/-- Operators that were the same stay the same, and no others become the same.  Nothing is asked
of literals, variables and patterns. -/
def Faithful (ρ : Renaming) : Prop :=
  ∀ a b : Infix, (ρ.op a).symbol = (ρ.op b).symbol ↔ a.symbol = b.symbol

/-- A renamed declaration. -/
def decl (ρ : Renaming) (d : InfixDecl) : InfixDecl := ⟨d.infixes.map ρ.op, d.fixity⟩

mutual
/-- A renamed expression. -/
def expr (ρ : Renaming) : Expr → Expr
  | .lit l => .lit (ρ.lit l)
  | .var i => .var (ρ.var i)
  | .app f x => .app (ρ.expr f) (ρ.expr x)
  | .bin l o r => .bin (ρ.expr l) (ρ.op o) (ρ.expr r)
  | .lam p b => .lam (ρ.pat p) (ρ.expr b)
  | .grp e => .grp (ρ.expr e)
  | .neg e => .neg (ρ.expr e)
  | .tup es => .tup (ρ.exprs es)
  | .list es => .list (ρ.exprs es)
  | .let_ d b => .let_ (ρ.decl d) (ρ.expr b)
/-- Renamed expressions. -/
def exprs (ρ : Renaming) : List Expr → List Expr
  | [] => []
  | e :: es => ρ.expr e :: ρ.exprs es
end

/-- A renamed operator with its fixity. -/
def entry (ρ : Renaming) (x : Infix × Fixity) : Infix × Fixity := (ρ.op x.1, x.2)

/-- A renamed error. -/
def error (ρ : Renaming) (e : AssocError) : AssocError := ⟨ρ.entry e.prev, ρ.entry e.curr⟩

/-- A renamed program. -/
def ast (ρ : Renaming) (a : Ast) : Ast := ⟨a.kinds, a.infxs.map ρ.decl, ρ.exprs a.exprs⟩

/-- A renamed state of the resolver. -/
def resolver (ρ : Renaming) (r : Resolver) : Resolver :=
  ⟨r.fixities.map ρ.entry, r.errors.map ρ.error⟩

end Renaming
end Pemdas
