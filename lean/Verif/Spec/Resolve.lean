import Verif.Spec.Grouping
/-
Specification of what it means to resolve a whole expression with scoped fixities.
Nothing here refers to the resolver.
-/
namespace Pemdas

/-- The fixities in scope in the body of a `let` with declaration `d`. -/
def Env.extend (fx : Env) (d : InfixDecl) : Env := fun op =>
  if op.symbol ∈ d.infixes.map Infix.symbol then d.fixity else fx op

/-- What is left of an expression when infix grouping (and nothing else) is forgotten. -/
inductive Tok where
  | op (o : Infix)
  | lit (l : Literal)
  | var (i : Ident)
  | app (f x : List Tok)
  | lam (p : Pat) (b : List Tok)
  | grp (e : List Tok)
  | neg (e : List Tok)
  | tup (es : List (List Tok))
  | list (es : List (List Tok))
  | let_ (d : InfixDecl) (b : List Tok)

mutual
/-- Forget infix grouping everywhere. -/
def Expr.toks : Expr → List Tok
  | .lit l => [.lit l]
  | .var i => [.var i]
  | .app f x => [.app f.toks x.toks]
  | .bin l op r => l.toks ++ .op op :: r.toks
  | .lam p b => [.lam p b.toks]
  | .grp e => [.grp e.toks]
  | .neg e => [.neg e.toks]
  | .tup es => [.tup (Expr.toksList es)]
  | .list es => [.list (Expr.toksList es)]
  | .let_ d b => [.let_ d b.toks]
/-- `toks` of the elements. -/
def Expr.toksList : List Expr → List (List Tok)
  | [] => []
  | e :: es => e.toks :: Expr.toksList es
end

/-- The outermost operator of an infix expression. -/
def Expr.rootOp : Expr → Option Infix
  | .bin _ op _ => some op
  | _ => none

/-- Not an infix expression. -/
def Expr.NonBin (e : Expr) : Prop := e.rootOp = none

mutual
/-- Everywhere in the expression, operators directly under another one are allowed there by
the fixities in scope. -/
def Expr.Grouped (fx : Env) : Expr → Prop
  | .lit _ => True
  | .var _ => True
  | .app f x => f.Grouped fx ∧ x.Grouped fx
  | .bin l op r =>
    l.Grouped fx ∧ r.Grouped fx ∧
    (∀ o, l.rootOp = some o → LeftOk (fx o) (fx op)) ∧
    (∀ o, r.rootOp = some o → RightOk (fx o) (fx op))
  | .lam _ b => b.Grouped fx
  | .grp e => e.Grouped fx
  | .neg e => e.Grouped fx
  | .tup es => Expr.GroupedList fx es
  | .list es => Expr.GroupedList fx es
  | .let_ d b => b.Grouped (fx.extend d)
/-- `Grouped` for all elements. -/
def Expr.GroupedList (fx : Env) : List Expr → Prop
  | [] => True
  | e :: es => e.Grouped fx ∧ Expr.GroupedList fx es
end

mutual
/-- The shape the parser gives to infix expressions: chains are nested to the right. -/
def Expr.RightNested : Expr → Prop
  | .lit _ => True
  | .var _ => True
  | .app f x => f.RightNested ∧ x.RightNested
  | .bin l _ r => l.NonBin ∧ l.RightNested ∧ r.RightNested
  | .lam _ b => b.RightNested
  | .grp e => e.RightNested
  | .neg e => e.RightNested
  | .tup es => Expr.RightNestedList es
  | .list es => Expr.RightNestedList es
  | .let_ _ b => b.RightNested
/-- `RightNested` for all elements. -/
def Expr.RightNestedList : List Expr → Prop
  | [] => True
  | e :: es => e.RightNested ∧ Expr.RightNestedList es
end

mutual
/-- No `let` in the expression names the same operator twice. -/
def Expr.LetsDistinct : Expr → Prop
  | .lit _ => True
  | .var _ => True
  | .app f x => f.LetsDistinct ∧ x.LetsDistinct
  | .bin l _ r => l.LetsDistinct ∧ r.LetsDistinct
  | .lam _ b => b.LetsDistinct
  | .grp e => e.LetsDistinct
  | .neg e => e.LetsDistinct
  | .tup es => Expr.LetsDistinctList es
  | .list es => Expr.LetsDistinctList es
  | .let_ d b => (d.infixes.map Infix.symbol).Nodup ∧ b.LetsDistinct
/-- `LetsDistinct` for all elements. -/
def Expr.LetsDistinctList : List Expr → Prop
  | [] => True
  | e :: es => e.LetsDistinct ∧ Expr.LetsDistinctList es
end

/-- `SubAt fx e fx' e'`: with fixities `fx` in scope at `e`, the expression `e'` occurs in
`e` at a place where the fixities in scope are `fx'`. -/
inductive SubAt : Env → Expr → Env → Expr → Prop where
  | here {fx e} : SubAt fx e fx e
  | appL {fx f x fx' e'} : SubAt fx f fx' e' → SubAt fx (.app f x) fx' e'
  | appR {fx f x fx' e'} : SubAt fx x fx' e' → SubAt fx (.app f x) fx' e'
  | binL {fx l op r fx' e'} : SubAt fx l fx' e' → SubAt fx (.bin l op r) fx' e'
  | binR {fx l op r fx' e'} : SubAt fx r fx' e' → SubAt fx (.bin l op r) fx' e'
  | lam {fx p b fx' e'} : SubAt fx b fx' e' → SubAt fx (.lam p b) fx' e'
  | grp {fx b fx' e'} : SubAt fx b fx' e' → SubAt fx (.grp b) fx' e'
  | neg {fx b fx' e'} : SubAt fx b fx' e' → SubAt fx (.neg b) fx' e'
  | tup {fx es x fx' e'} : x ∈ es → SubAt fx x fx' e' → SubAt fx (.tup es) fx' e'
  | list {fx es x fx' e'} : x ∈ es → SubAt fx x fx' e' → SubAt fx (.list es) fx' e'
  | let_ {fx d b fx' e'} : SubAt (fx.extend d) b fx' e' → SubAt fx (.let_ d b) fx' e'

/-- The operator `o` is used (not merely declared) somewhere in the expression. -/
inductive UsesOp (o : Infix) : Expr → Prop where
  | here {l r} : UsesOp o (.bin l o r)
  | appL {f x} : UsesOp o f → UsesOp o (.app f x)
  | appR {f x} : UsesOp o x → UsesOp o (.app f x)
  | binL {l op r} : UsesOp o l → UsesOp o (.bin l op r)
  | binR {l op r} : UsesOp o r → UsesOp o (.bin l op r)
  | lam {p b} : UsesOp o b → UsesOp o (.lam p b)
  | grp {b} : UsesOp o b → UsesOp o (.grp b)
  | neg {b} : UsesOp o b → UsesOp o (.neg b)
  | tup {es x} : x ∈ es → UsesOp o x → UsesOp o (.tup es)
  | list {es x} : x ∈ es → UsesOp o x → UsesOp o (.list es)
  | let_ {d b} : UsesOp o b → UsesOp o (.let_ d b)

/-- A `let` with declaration `d` occurs in the expression. -/
inductive LetIn (d : InfixDecl) : Expr → Prop where
  | here {b} : LetIn d (.let_ d b)
  | appL {f x} : LetIn d f → LetIn d (.app f x)
  | appR {f x} : LetIn d x → LetIn d (.app f x)
  | binL {l op r} : LetIn d l → LetIn d (.bin l op r)
  | binR {l op r} : LetIn d r → LetIn d (.bin l op r)
  | lam {p b} : LetIn d b → LetIn d (.lam p b)
  | grp {b} : LetIn d b → LetIn d (.grp b)
  | neg {b} : LetIn d b → LetIn d (.neg b)
  | tup {es x} : x ∈ es → LetIn d x → LetIn d (.tup es)
  | list {es x} : x ∈ es → LetIn d x → LetIn d (.list es)
  | let_ {d' b} : LetIn d b → LetIn d (.let_ d' b)

/-- How often a declaration names an operator. -/
def InfixDecl.times (d : InfixDecl) (op : Infix) : Nat := (d.infixes.map Infix.symbol).count op.symbol

/-- The two operators `p` and `c`, with fixities `pf` and `cf`, really conflict in some
sub-expression of `e` under the fixities in scope there. -/
def Conflict (fx : Env) (e : Expr) (p : Infix × Fixity) (c : Infix × Fixity) : Prop :=
  ∃ fx' e', SubAt fx e fx' e' ∧ p.2 = fx' p.1 ∧ c.2 = fx' c.1 ∧
    ClashIn fx' e'.chainOperators p.1 c.1

end Pemdas
