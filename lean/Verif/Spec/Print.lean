import Verif.Model.Ast
import Verif.Spec.Terminal
/-
Vocabulary for what is printed.
-/
namespace Pemdas

mutual
/-- No negation occurs in the expression. -/
def Expr.NoNeg : Expr → Prop
  | .lit _ => True
  | .var _ => True
  | .app f x => f.NoNeg ∧ x.NoNeg
  | .bin l _ r => l.NoNeg ∧ r.NoNeg
  | .lam _ b => b.NoNeg
  | .grp e => e.NoNeg
  | .neg _ => False
  | .tup es => Expr.NoNegList es
  | .list es => Expr.NoNegList es
  | .let_ _ b => b.NoNeg
/-- `NoNeg` for all elements. -/
def Expr.NoNegList : List Expr → Prop
  | [] => True
  | e :: es => e.NoNeg ∧ Expr.NoNegList es
end

/-- The name in an identifier. -/
def Ident.names : Ident → List Text
  | .upper s | .lower s | .infix_ s => [s]
  | .nil | .commas _ => []

mutual
/-- The names in a pattern. -/
def Pat.names : Pat → List Text
  | .wild => []
  | .lit _ => []
  | .var s => [s]
  | .neg p => p.names
  | .con c args => c :: Pat.namesList args
  | .tup ps => Pat.namesList ps
  | .arr ps => Pat.namesList ps
  | .lnk l r => l.names ++ r.names
  | .as_ s p => s :: p.names
/-- The names in all elements. -/
def Pat.namesList : List Pat → List Text
  | [] => []
  | p :: ps => p.names ++ Pat.namesList ps
end

mutual
/-- The names and operators in an expression, except those in fixity declarations. -/
def Expr.names : Expr → List Text
  | .lit _ => []
  | .var i => i.names
  | .app f x => f.names ++ x.names
  | .bin l op r => l.names ++ op.symbol :: r.names
  | .lam p b => p.names ++ b.names
  | .grp e => e.names
  | .neg e => e.names
  | .tup es => Expr.namesList es
  | .list es => Expr.namesList es
  | .let_ _ b => b.names
/-- The names in all elements. -/
def Expr.namesList : List Expr → List Text
  | [] => []
  | e :: es => e.names ++ Expr.namesList es
end

/-- Brackets, and the character that starts an escape sequence. -/
def special : Text := ['(', ')', '[', ']', '\x1b']

/-- No name contains a bracket or an escape character. -/
def Expr.CleanNames (e : Expr) : Prop := ∀ n ∈ e.names, ∀ c ∈ n, c ∉ special

/-- A screen on which brackets are matched: every opening bracket outside a literal has a closing
one of the same kind, drawn with the same pen, and they are properly nested. -/
inductive Balanced [CharTables] : List (Char × Pen) → Prop
  | nil : Balanced []
  | char {c p} : c ∉ special → Balanced [(c, p)]
  | lit (l : Literal) (p : Pen) : Balanced (l.text.map (·, p))
  | append {a b} : Balanced a → Balanced b → Balanced (a ++ b)
  | parens {a p} : Balanced a → Balanced (('(', p) :: (a ++ [(')', p)]))
  | brackets {a p} : Balanced a → Balanced (('[', p) :: (a ++ [(']', p)]))

/-- The keyword of a declaration. -/
def Assoc.shown : Assoc → Text
  | .left => t!"infixl"
  | .right => t!"infixr"
  | .neither => t!"infix"

/-- A line of a listing of fixities: the keyword in a column of width 6, the precedence, and the
operators separated by commas. -/
def Fixity.line (fx : Fixity) (ops : List Infix) : Text :=
  (fx.assoc.shown ++ List.replicate (6 - fx.assoc.shown.length) ' ') ++ t!" " ++ decText fx.prec ++
    t!" " ++ List.intercalate t!", " (ops.map Infix.text)

/-- The different fixities of a table, in the order in which they first occur. -/
def distinctFixities (es : List (Infix × Fixity)) : List Fixity := (es.map (·.2)).eraseDups

/-- A listing of fixities: one line for every different fixity, in the order in which they first
occur, with the operators that have it. -/
def listing (es : List (Infix × Fixity)) : Text :=
  List.intercalate t!"\n"
    ((distinctFixities es).map fun fx => fx.line ((es.filter (·.2 = fx)).map (·.1)))

/-- A text in a colour, which is reset behind it: what is sent to the terminal. -/
def painted (code t : Text) : Text := t!"\x1b[" ++ code ++ t!"m" ++ t ++ t!"\x1b[0m"

/-- `Fixity.line` as sent to the terminal: the keyword in red, the precedence in purple. -/
def Fixity.written (fx : Fixity) (ops : List Infix) : Text :=
  (painted t!"31" fx.assoc.shown ++ List.replicate (6 - fx.assoc.shown.length) ' ') ++ t!" " ++
    painted t!"38;2;128;0;128" (decText fx.prec) ++ t!" " ++
    List.intercalate t!", " (ops.map Infix.text)

/-- `listing` as sent to the terminal. -/
def listingSent (es : List (Infix × Fixity)) : Text :=
  List.intercalate t!"\n"
    ((distinctFixities es).map fun fx => fx.written ((es.filter (·.2 = fx)).map (·.1)))

end Pemdas
