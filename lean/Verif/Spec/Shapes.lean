import Verif.Spec.Line
import Verif.Spec.Grouping
/-
Vocabulary for chains of operators, lambdas and applications in sources.
-/
namespace Pemdas

/-- An operator, its token and the column of the token, and the operand after it with its
tokens. -/
structure Link where
  op : Infix
  tok : Token
  col : Nat
  expr : Expr
  toks : List CTok

/-- The tokens of a link. -/
def Link.all (x : Link) : List CTok := (x.tok, x.col) :: x.toks

/-- The chain nested to the right. -/
def chainOf : Expr → List (Infix × Expr) → Expr
  | e, [] => e
  | e, (op, e') :: rest => .bin e op (chainOf e' rest)

/-- Operands that are one token. -/
inductive AtomTok : Expr → Token → Prop
  | lit (l) : AtomTok (.lit l) (.lit l)
  | lower (s) : AtomTok (.var (.lower s)) (.lower s)

/-- Lambdas and `let`s, which have no closing delimiter. -/
def Expr.isOpen : Expr → Bool
  | .lam _ _ | .let_ _ _ => true
  | _ => false

mutual
/-- No lambda or `let` is a left operand and, if `strict`, none is applied. -/
def Expr.BodiesLast (strict : Bool) : Expr → Prop
  | .lit _ => True
  | .var _ => True
  | .app f x => (strict = true → f.isOpen = false) ∧ f.BodiesLast strict ∧ x.BodiesLast strict
  | .bin l _ r => l.isOpen = false ∧ l.BodiesLast strict ∧ r.BodiesLast strict
  | .lam _ b => b.BodiesLast strict
  | .grp e => e.BodiesLast strict
  | .neg e => e.BodiesLast strict
  | .tup es => Expr.BodiesLastList strict es
  | .list es => Expr.BodiesLastList strict es
  | .let_ _ b => b.BodiesLast strict
/-- `BodiesLast` for all elements. -/
def Expr.BodiesLastList (strict : Bool) : List Expr → Prop
  | [] => True
  | e :: es => e.BodiesLast strict ∧ Expr.BodiesLastList strict es
end

/-- An expression that can be an argument, with its tokens. -/
abbrev ArgPiece := Expr × List CTok

/-- The layout rule for juxtaposed pieces: with `c` the column at which the application `e`
started, a piece is its next argument if its first token ends beyond `c`, and otherwise starts the
next application. -/
def layoutFrom (c : Nat) (e : Expr) : List ArgPiece → List Expr
  | [] => [e]
  | x :: rest =>
    if c < firstCol x.2 then layoutFrom c (.app e x.1) rest
    else e :: layoutFrom (firstCol x.2) x.1 rest

/-- The applications that juxtaposed pieces form. -/
def layout : List ArgPiece → List Expr
  | [] => []
  | x :: rest => layoutFrom (firstCol x.2) x.1 rest

end Pemdas
