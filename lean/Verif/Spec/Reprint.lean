import Verif.Spec.LexKinds
import Verif.Spec.Parsed
import Verif.Spec.Shapes
import Verif.Spec.Print
/-
Vocabulary for reading back what is printed.
-/
namespace Pemdas

mutual
/-- The expression without parentheses and without `let` declarations: the names, literals and
operators, and how they are grouped. -/
def Expr.skeleton : Expr → Expr
  | .lit l => .lit l
  | .var i => .var i
  | .app f x => .app f.skeleton x.skeleton
  | .bin l op r => .bin l.skeleton op r.skeleton
  | .lam p b => .lam p b.skeleton
  | .grp e => e.skeleton
  | .neg e => .neg e.skeleton
  | .tup es => .tup (Expr.skeletonList es)
  | .list es => .list (Expr.skeletonList es)
  | .let_ _ b => b.skeleton
/-- `skeleton` of all elements. -/
def Expr.skeletonList : List Expr → List Expr
  | [] => []
  | e :: es => e.skeleton :: Expr.skeletonList es
end

section
variable [CharTables]

/-- A character that is printed as itself or with an escape the lexer knows. -/
def PlainChar (c : Char) : Prop :=
  c ∈ t!"\t\n\r\"'\\" ∨ (isPrintable c = true ∧ isGraphemeExtended c = false)

/-- Literals that can be read back. -/
def Literal.Rereads : Literal → Prop
  | .int n => n < 2 ^ 64
  | .char c => PlainChar c
  | .str s => ∀ c ∈ s, PlainChar c
  | .frac _ => False

/-- An identifier that does not start with a subscript or superscript. -/
def PlainName (s : Text) : Prop := LowerName s ∧ ∀ c ∈ s.head?, isTrailing c = false

/-- Operands that can be read back. -/
def Ident.Rereads : Ident → Prop
  | .lower s => PlainName s
  | .infix_ s => OpName s
  | .commas k => 0 < k
  | .upper _ | .nil => False

/-- Operators that can be read back: those written with operator characters, and promoted names
that have a second character other than an apostrophe; or that consist of a character and a blank,
which is how the lexer reads names of one character. -/
def Infix.Rereads : Infix → Prop
  | .standard s => OpName s ∨ s = t!"-" ∨ s = t!"@"
  | .promoted s =>
    (∃ c d y, s = c :: d :: y ∧ isIdentStart c = true ∧ d ≠ '\'' ∧ Shape isIdentChar (d :: y)) ∨
    ∃ c w, s = [c, w] ∧ isWhitespace w = true ∧ w ≠ '\n' ∧ c ≠ '\n' ∧ c ∉ special ∧
      c ∉ t!"'\\\x00"

mutual
/-- Patterns that can be read back; literals only inside a tuple or array, but not as the first
component of a tuple (`inner`). -/
def Pat.Rereads (inner : Bool) : Pat → Prop
  | .wild => True
  | .lit l => inner = true ∧ l.Rereads
  | .var s => PlainName s
  | .neg p => p.Rereads false
  | .con _ _ => False
  | .tup ps => 2 ≤ ps.length ∧ Pat.RereadsList false ps
  | .arr ps => ps ≠ [] ∧ Pat.RereadsList true ps
  | .lnk _ _ => False
  | .as_ s p => PlainName s ∧ p.Rereads false
/-- `Rereads` for all elements. -/
def Pat.RereadsList (inner : Bool) : List Pat → Prop
  | [] => True
  | p :: ps => p.Rereads inner ∧ Pat.RereadsList true ps
end

mutual
/-- Expressions made of names, operators, literals and patterns that can be read back, in the shape
the parser gives them, in which no lambda or `let` is applied. Infix expressions may be grouped in
any way. -/
def Expr.Rereads : Expr → Prop
  | .lit l => l.Rereads
  | .var i => i.Rereads
  | .app f x => f.NonBin ∧ f.isOpen = false ∧ x.isArg = true ∧ f.Rereads ∧ x.Rereads
  | .bin l op r => op.Rereads ∧ l.Rereads ∧ r.Rereads
  | .lam p b => p.Rereads false ∧ b.Rereads
  | .grp e => e.Rereads
  | .neg _ => False
  | .tup es => es.length ≠ 1 ∧ Expr.RereadsList es
  | .list es => Expr.RereadsList es
  | .let_ _ b => b.Rereads
/-- `Rereads` for all elements. -/
def Expr.RereadsList : List Expr → Prop
  | [] => True
  | e :: es => e.Rereads ∧ Expr.RereadsList es
end

mutual
/-- Expressions made of names, operators, literals and patterns that can be read back. -/
def Expr.PlainParts : Expr → Prop
  | .lit l => l.Rereads
  | .var i => i.Rereads
  | .app f x => f.PlainParts ∧ x.PlainParts
  | .bin l op r => op.Rereads ∧ l.PlainParts ∧ r.PlainParts
  | .lam p b => p.Rereads false ∧ b.PlainParts
  | .grp e => e.PlainParts
  | .neg e => e.PlainParts
  | .tup es => Expr.PlainPartsList es
  | .list es => Expr.PlainPartsList es
  | .let_ _ b => b.PlainParts
/-- `PlainParts` for all elements. -/
def Expr.PlainPartsList : List Expr → Prop
  | [] => True
  | e :: es => e.PlainParts ∧ Expr.PlainPartsList es
end

end
end Pemdas
