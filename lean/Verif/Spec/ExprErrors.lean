import Verif.Spec.Errors
import Verif.Spec.Layout
/-
What `parse_expr` reads.
-/
namespace Pemdas

/-- The location at which the lexer of a source starts: that of its first character that is no
whitespace. -/
def startLoc [CharTables] (src : Text) : Loc := locOf (unCR (src.takeWhile isWhitespace))

/-- Tokens with the columns at which they end. -/
def cols (xs : List (Token × LocSpan)) : List CTok := xs.map fun x => (x.1, x.2.hi.col)

/-- Some source that starts at `x`, and that is an expression from its beginning to its end, begins
with these tokens, ending at these places. -/
def BeginsExpr [CharTables] (x : Loc) (us : List (Token × Loc)) : Prop :=
  ∃ src xs ts m e, startLoc src = x ∧ Lexer.items us.length (Lexer.new src) = .ok xs ∧
    ends xs = us ∧ Lexes src ts ∧ Written .chain x.col m e ts

end Pemdas
