import Verif.Spec.LexGrammar
import Verif.Spec.Layout
/-
The lexical grammar with the columns at which tokens end.
-/
namespace Pemdas

/-- The column right after a text: one plus the number of characters since the last newline. -/
def colAfter (pre : Text) : Nat := 1 + (pre.reverse.takeWhile (· != '\n')).length

/-- The text does not end in a character that is given by its code. -/
def NoCodeEnd (s : Text) : Prop :=
  ∀ p u q, u ∈ t!"uU" → s = p ++ '\'' :: '\\' :: u :: (q ++ t!"'") → '\'' ∈ q

/-- There are no two tildes in the last line of the text, that is no line comment (or one in a
string or in a longer operator). -/
def NoLineEnd (s : Text) : Prop := ∀ p q, s = p ++ t!"~~" ++ q → '\n' ∈ q

/-- What follows the text is neither part of a comment nor lost after the text: it ends neither in a
block comment nor in a character given by its code, after both of which the lexer loses a character,
and there is no line comment in its last line. -/
structure CleanEnd (s : Text) : Prop where
  code : NoCodeEnd s
  block : ∀ p, s ≠ p ++ t!"}~"
  line : NoLineEnd s

/-- The last token is no promoted name of one character, of which whitespace after it would become
a part. -/
def NoShortEnd (ts : List Token) : Prop :=
  ∀ x, ts.getLast? = some (.affix x true) → x.length ≠ 1

section
variable [CharTables]

/-- `Placed pre src cs`: after the text `pre`, the text `src` consists of the tokens `cs`, which end
at the given columns. -/
inductive Placed : Text → Text → List CTok → Prop
  | nil {pre : Text} : Placed pre [] []
  | space {c : Char} {pre s : Text} {cs : List CTok} : isWhitespace c = true →
      Placed (pre ++ [c]) s cs → Placed pre (c :: s) cs
  | line {pre b s : Text} {cs : List CTok} : '\n' ∉ b → Maximal isInfixChar t!"~~" (b ++ s) →
      (∀ c ∈ s.head?, c = '\n') → Placed (pre ++ (t!"~~" ++ b)) s cs → Placed pre (t!"~~" ++ b ++ s) cs
  | block {pre b x s : Text} {cs : List CTok} : CommentBody b → Lost x s →
      Placed (pre ++ (t!"~{" ++ b ++ t!"}~" ++ x)) s cs →
      Placed pre (t!"~{" ++ b ++ t!"}~" ++ x ++ s) cs
  | token {t : Token} {pre w s : Text} {cs : List CTok} : TokenAt t w s → Placed (pre ++ w) s cs →
      Placed pre (w ++ s) ((t, colAfter (pre ++ w)) :: cs)

end
end Pemdas
