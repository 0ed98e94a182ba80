import Verif.Model.Basic
import Verif.Model.Token
/-
Specification vocabulary for the lexer, independent of how the lexer works.
-/
namespace Pemdas

/-- Line, column and byte offset of the place just after `pre` in a text: one plus the number of
newlines, one plus the number of characters since the last newline, UTF-8 length. -/
def locOf (pre : Text) : Loc :=
  ⟨1 + pre.count '\n', 1 + (pre.reverse.takeWhile (· != '\n')).length, utf8Len pre⟩

/-- The text contains no line feed directly followed by a carriage return. -/
def NoLFCR (s : Text) : Prop := ¬ ['\n', '\r'] <:+: s

/-- The text without the carriage returns that directly follow a line feed. -/
def unCR : Text → Text
  | '\n' :: '\r' :: cs => '\n' :: unCR cs
  | c :: cs => c :: unCR cs
  | [] => []

/-- Reading order of locations: byte offset, line and column agree. -/
def Loc.Before (a b : Loc) : Prop :=
  a.pos ≤ b.pos ∧ (a.line < b.line ∨ (a.line = b.line ∧ a.col ≤ b.col))

/-- A lexical error without its locations. -/
def LexError.noLoc : LexError → LexError
  | .emptyChar _ _ => .emptyChar .default .default
  | .invalidEscape c _ _ => .invalidEscape c .default .default
  | .invalidInt _ e => .invalidInt .default e
  | .invalidPromotedInfix _ s => .invalidPromotedInfix .default s
  | .unterminatedChar _ _ => .unterminatedChar .default .default
  | .unterminatedString _ => .unterminatedString .default
  | .unterminatedComment _ _ => .unterminatedComment .default .default
  | .invalidUnicode _ e => .invalidUnicode .default e
  | .unknown => .unknown

/-- A token without the locations inside its error, if it is one. -/
def Token.noLoc : Token → Token
  | .error e => .error e.noLoc
  | t => t

/-- The value of a string of decimal digits. -/
def decValue (s : Text) : Nat := s.foldl (fun a c => a * 10 + (c.toNat - '0'.toNat)) 0

/-- How a token is spelled in the source. Nothing is said about literals other than integers and
about errors. -/
def Spells : Token → Text → Prop
  | .parenL, x => x = t!"("
  | .parenR, x => x = t!")"
  | .brackL, x => x = t!"["
  | .brackR, x => x = t!"]"
  | .curlyL, x => x = t!"{"
  | .curlyR, x => x = t!"}"
  | .comma, x => x = t!","
  | .semi, x => x = t!";"
  | .underscore, x => x = t!"_"
  | .lambda, x => x = t!"\\" ∨ x = t!"λ"
  | .arrow, x => x = t!"->" ∨ x = t!"→" ∨ x = t!"⟶" ∨ x = t!"↦" ∨ x = t!"⟼"
  | .dash, x => x = t!"-"
  | .dot, x => x = t!"."
  | .at_, x => x = t!"@"
  | .infixL, x => x = t!"infixl"
  | .infixR, x => x = t!"infixr"
  | .infix_, x => x = t!"infix"
  | .let_, x => x = t!"let"
  | .in_, x => x = t!"in"
  | .upper s, x => x = s
  | .lower s, x => x = s
  | .affix s false, x => x = s
  | .affix s true, x => x = '\'' :: s ∨ x = '`' :: (s ++ t!"`")
  | .lit (.int n), x => x ≠ [] ∧ x.all isDigit10 = true ∧ decValue x = n
  | .lit _, _ => True
  | .eof, x => x = []
  | .error _, _ => True

/-- Identifiers and keywords. -/
def Token.isWord : Token → Bool
  | .underscore | .infixL | .infixR | .infix_ | .let_ | .in_ | .upper _ | .lower _ => true
  | _ => false

/-- Operators written with operator characters. -/
def Token.isOperator : Token → Bool
  | .lambda | .arrow | .dash | .at_ | .affix _ false => true
  | _ => false

/-- A run of characters of one kind followed by a run of sub- and superscripts. -/
def Shape (p : Char → Bool) (x : Text) : Prop :=
  ∃ b t, x = b ++ t ∧ b.all p = true ∧ t.all isTrailing = true

/-- The inside of a block comment: a text in which comment brackets `~{`, `}~` (read from the
left) are balanced. -/
inductive CommentBody : Text → Prop
  | nil : CommentBody []
  | char {c : Char} {b : Text} (h1 : ¬ t!"~{" <+: c :: b) (h2 : ¬ t!"}~" <+: c :: b) :
      CommentBody b → CommentBody (c :: b)
  | nest {a b : Text} : CommentBody a → CommentBody b →
      CommentBody (t!"~{" ++ a ++ t!"}~" ++ b)

/-- A text that separates tokens: whitespace and line comments. A line comment is `~~`, followed
by anything that is not part of an operator, up to and including the end of the line. -/
inductive Gap : Text → Prop
  | nil : Gap []
  | space {c : Char} {g : Text} : isWhitespace c = true → Gap g → Gap (c :: g)
  | line {b g : Text} : '\n' ∉ b → (∀ c ∈ b.head?, isInfixChar c = false ∧ isTrailing c = false) →
      Gap g → Gap (t!"~~" ++ b ++ t!"\n" ++ g)

/-- The usual way to write a character inside a string literal. -/
def escapeChar (c : Char) : Text :=
  if c = '\t' then t!"\\t"
  else if c = '\n' then t!"\\n"
  else if c = '\r' then t!"\\r"
  else if c = '"' then t!"\\\""
  else if c = '\\' then t!"\\\\"
  else if c = '\x08' then t!"\\b"
  else if c = '\x0C' then t!"\\f"
  else [c]

/-- The usual way to write a text as a string literal, without the quotes. -/
def escapeText (s : Text) : Text := s.flatMap escapeChar

end Pemdas
