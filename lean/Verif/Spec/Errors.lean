import Verif.Model.Parser
import Verif.Spec.LexRun
import Verif.Spec.BadWord
import Verif.Spec.Grammar
import Verif.Spec.Placed
/-
What parse errors say.
-/
namespace Pemdas

/-- The token that was found where it is not allowed. -/
def ParseError.found : ParseError → Token
  | .expected _ _ t => t
  | .unexpected t _ => t

/-- Tokens with the places where they end. -/
def ends (xs : List (Token × LocSpan)) : List (Token × Loc) := xs.map fun x => (x.1, x.2.hi)

/-- Some program begins with these tokens, ending at these places. -/
def Begins [CharTables] (us : List (Token × Loc)) : Prop :=
  ∃ src xs ast l', Lexer.items us.length (Lexer.new src) = .ok xs ∧ ends xs = us ∧
    parse src = .ok ast l'

/-- After the tokens `xs` of the source, the text `r` is left. -/
def LeftAfter (src : Text) (xs : List (Token × LocSpan)) (r : Text) : Prop :=
  ∃ a, src = a ++ r ∧ (xs = [] → a = []) ∧ ∀ x, xs.getLast? = some x → x.2.hi = locOf a

/-- What crashes a session: the source begins like a program, and then there is, after whitespace
and comments, a word that does not begin in lower case or a character literal with nothing in it,
or there is, after a fixity keyword, an integer above 9. -/
inductive Fatal [CharTables] (src : Text) : Panic → Prop
  | word {xs : List (Token × LocSpan)} {g w : Text} :
      Lexer.items xs.length (Lexer.new src) = .ok xs → Begins (ends xs) →
      LeftAfter src xs (g ++ w) → Skips g w → BadWord w → Fatal src .identAssert
  | char {xs : List (Token × LocSpan)} {g w : Text} :
      Lexer.items xs.length (Lexer.new src) = .ok xs → Begins (ends xs) →
      LeftAfter src xs (g ++ (t!"''" ++ w)) → Skips g (t!"''" ++ w) → Fatal src .emptyCharTodo
  | prec {us : List (Token × Loc)} {xs : List (Token × LocSpan)} {a : Assoc} {n : Nat} {x y : Loc} :
      Lexer.items (us.length + 2) (Lexer.new src) = .ok xs →
      ends xs = us ++ [(a.kwTok, x), (.lit (.int n), y)] → 9 < n →
      Begins (us ++ [(a.kwTok, x)]) → Fatal src .precTodo

end Pemdas
