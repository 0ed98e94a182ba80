import Verif.Model.Fixity
/-
Programs that differ in the precedences that are declared only: every number is replaced, in
declarations at top level and in front of expressions, in tables and in errors.
-/
namespace Pemdas

/-- A fixity with another number. -/
def Fixity.renum (f : Nat → Nat) (fx : Fixity) : Fixity := ⟨f fx.prec, fx.assoc⟩

namespace Renum

/-- A declaration with another number. -/
def decl (f : Nat → Nat) (d : InfixDecl) : InfixDecl := ⟨d.infixes, d.fixity.renum f⟩

mutual
/-- An expression with other numbers. -/
def expr (f : Nat → Nat) : Expr → Expr
  | .lit l => .lit l
  | .var i => .var i
  | .app g x => .app (expr f g) (expr f x)
  | .bin l o r => .bin (expr f l) o (expr f r)
  | .lam p b => .lam p (expr f b)
  | .grp e => .grp (expr f e)
  | .neg e => .neg (expr f e)
  | .tup es => .tup (exprs f es)
  | .list es => .list (exprs f es)
  | .let_ d b => .let_ (decl f d) (expr f b)
/-- Expressions with other numbers. -/
def exprs (f : Nat → Nat) : List Expr → List Expr
  | [] => []
  | e :: es => expr f e :: exprs f es
end

/-- An entry of the table with another number. -/
def entry (f : Nat → Nat) (x : Infix × Fixity) : Infix × Fixity := (x.1, x.2.renum f)

/-- An error with other numbers. -/
def error (f : Nat → Nat) (e : AssocError) : AssocError := ⟨entry f e.prev, entry f e.curr⟩

/-- A program with other numbers. -/
def ast (f : Nat → Nat) (a : Ast) : Ast := ⟨a.kinds, a.infxs.map (decl f), exprs f a.exprs⟩

/-- A state of the resolver with other numbers. -/
def resolver (f : Nat → Nat) (r : Resolver) : Resolver :=
  ⟨r.fixities.map (entry f), r.errors.map (error f)⟩

mutual
/-- The numbers declared in an expression are among those of `U`. -/
def InExpr (U : Nat → Prop) : Expr → Prop
  | .lit _ | .var _ => True
  | .app g x => InExpr U g ∧ InExpr U x
  | .bin l _ r => InExpr U l ∧ InExpr U r
  | .lam _ b | .grp b | .neg b => InExpr U b
  | .tup es | .list es => InExprs U es
  | .let_ d b => U d.fixity.prec ∧ InExpr U b
/-- The numbers declared in expressions are among those of `U`. -/
def InExprs (U : Nat → Prop) : List Expr → Prop
  | [] => True
  | e :: es => InExpr U e ∧ InExprs U es
end

/-- The numbers in a table are among those of `U`. -/
def InTable (U : Nat → Prop) (m : Fixities) : Prop := ∀ x ∈ m, U x.2.prec

/-- The numbers in a state of the resolver are among those of `U`. -/
def InResolver (U : Nat → Prop) (r : Resolver) : Prop :=
  InTable U r.fixities ∧ ∀ e ∈ r.errors, U e.prev.2.prec ∧ U e.curr.2.prec

/-- The numbers declared in a program are among those of `U`. -/
def InAst (U : Nat → Prop) (a : Ast) : Prop :=
  (∀ d ∈ a.infxs, U d.fixity.prec) ∧ InExprs U a.exprs

/-- The numbers of `U` are replaced by others in the same order.  Operators that are not declared
have precedence 9, which no declaration can change. -/
structure Ordered (f : Nat → Nat) (U : Nat → Prop) : Prop where
  order : ∀ a b, U a → U b → (f a < f b ↔ a < b)
  nine : U 9
  fixed : f 9 = 9

end Renum
end Pemdas
