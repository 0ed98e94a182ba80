import Verif.Spec.LexKinds
/-
The lexical grammar: which texts are read as which tokens. The grammar says what every token looks
like, what may follow it and what is skipped between tokens; it says nothing about positions,
lookahead or how lexing proceeds.
-/
namespace Pemdas

/-- Characters that are a token each. -/
def punctuation : List (Token × Char) :=
  [(.semi, ';'), (.parenL, '('), (.parenR, ')'), (.brackL, '['), (.brackR, ']'), (.curlyL, '{'),
   (.curlyR, '}'), (.comma, ',')]

/-- The tokens of the reserved words. -/
def keywordTokens : List (Token × Text) :=
  [(.underscore, t!"_"), (.infixL, t!"infixl"), (.infixR, t!"infixr"), (.infix_, t!"infix"),
   (.let_, t!"let"), (.in_, t!"in")]

/-- The tokens of the reserved operators. -/
def reservedTokens : List (Token × Text) :=
  [(.lambda, t!"\\"), (.dash, t!"-"), (.arrow, t!"->"), (.at_, t!"@")]

/-- Escapes: the character after the backslash and the character that is meant. -/
def escapes : List (Char × Char) :=
  [('t', '\t'), ('n', '\n'), ('r', '\r'), ('"', '"'), ('\'', '\''), ('\\', '\\'), ('b', '\x08'),
   ('f', '\x0C')]

/-- The value of a hexadecimal digit. -/
def hexDigit (c : Char) : Nat :=
  if c ≤ '9' then c.toNat - 48 else if c ≤ 'F' then c.toNat - 55 else c.toNat - 87

/-- The value of a string of hexadecimal digits. -/
def hexValue (s : Text) : Nat := s.foldl (fun a c => a * 16 + hexDigit c) 0

/-- `StrBody w s`: between quotes, `w` stands for `s`. A backslash before the end of a line hides
the line end and all whitespace after it; before other characters that are no escapes it is
dropped. -/
inductive StrBody : Text → Text → Prop
  | nil : StrBody [] []
  | char {c : Char} {w s : Text} : c ≠ '"' → c ≠ '\\' → StrBody w s → StrBody (c :: w) (c :: s)
  | escape {c d : Char} {w s : Text} : (c, d) ∈ escapes → StrBody w s →
      StrBody ('\\' :: c :: w) (d :: s)
  | hidden {g w s : Text} : g.all isWhitespace = true → (∀ c ∈ w.head?, isWhitespace c = false) →
      StrBody w s → StrBody ('\\' :: '\n' :: (g ++ w)) s
  | other {c : Char} {w s : Text} : c ∉ escapes.map (·.1) → c ≠ '\n' → StrBody w s →
      StrBody ('\\' :: c :: w) (c :: s)

/-- What may be lost: one character, or nothing at the end of the text. -/
def Lost (x rest : Text) : Prop := x.length = 1 ∨ (x = [] ∧ rest = [])

/-- `x` cannot be made longer by what follows: characters of one kind, then sub- and superscripts. -/
def Maximal (p : Char → Bool) (x rest : Text) : Prop := ∀ c ∈ rest.head?, ¬ Shape p (x ++ [c])

section
variable [CharTables]

/-- `TokenAt t w rest`: `w` is a token `t` if `rest` follows. -/
inductive TokenAt : Token → Text → Text → Prop
  | punct {t : Token} {c : Char} {rest : Text} : (t, c) ∈ punctuation → TokenAt t [c] rest
  | keyword {t : Token} {w rest : Text} : (t, w) ∈ keywordTokens →
      Maximal isIdentChar w rest → TokenAt t w rest
  | lower {w rest : Text} : LowerName w → Maximal isIdentChar w rest → TokenAt (.lower w) w rest
  | reserved {t : Token} {w rest : Text} : (t, w) ∈ reservedTokens →
      Maximal isInfixChar w rest → TokenAt t w rest
  /-- Operators; a tilde and a brace open a comment. -/
  | op {w rest : Text} : OpName w → Maximal isInfixChar w rest → (w = t!"~" → rest.head? ≠ some '{') →
      TokenAt (.affix w false) w rest
  | backticks {s rest : Text} : PromotedName s → TokenAt (.affix s true) ('`' :: (s ++ t!"`")) rest
  /-- An apostrophe before a name that does not look like a character between apostrophes. -/
  | apostrophe {s rest : Text} : PromotedName s → Maximal isIdentChar s rest →
      (∀ c ∈ (s.tail ++ rest).head?, c ≠ '\'' ∧ isWhitespace c = false) →
      TokenAt (.affix s true) ('\'' :: s) rest
  /-- An apostrophe, any character and whitespace: the whitespace is part of the name. -/
  | blank {c w : Char} {rest : Text} : c ∉ t!"'\\\x00" → isWhitespace w = true →
      TokenAt (.affix [c, w] true) ['\'', c, w] rest
  | int {ds rest : Text} : ds ≠ [] → ds.all isDigit10 = true → decValue ds < 2 ^ 64 →
      (∀ c ∈ rest.head?, isDigit10 c = false) → TokenAt (.lit (.int (decValue ds))) ds rest
  | char {c : Char} {rest : Text} : c ∉ t!"'\\\x00" →
      TokenAt (.lit (.char c)) ['\'', c, '\''] rest
  | charEscape {c d : Char} {rest : Text} : (c, d) ∈ escapes →
      TokenAt (.lit (.char d)) ['\'', '\\', c, '\''] rest
  /-- A code point in hexadecimal; the character after the literal is lost. -/
  | charCode {u c : Char} {plus ds x rest : Text} : u ∈ t!"uU" → plus ∈ [[], t!"+"] →
      ds ≠ [] → ds.all isHexDigit = true → ds.length ≤ 6 → c.toNat = hexValue ds → Lost x rest →
      TokenAt (.lit (.char c)) ('\'' :: '\\' :: u :: (plus ++ ds ++ '\'' :: x)) rest
  | str {w s rest : Text} : StrBody w s → TokenAt (.lit (.str s)) ('"' :: (w ++ t!"\"")) rest

/-- `Tokenizes src ts`: the text consists of the tokens, with whitespace and comments between
them. -/
inductive Tokenizes : Text → List Token → Prop
  | nil : Tokenizes [] []
  | space {c : Char} {s : Text} {ts : List Token} : isWhitespace c = true → Tokenizes s ts →
      Tokenizes (c :: s) ts
  /-- A line comment ends before the end of the line. -/
  | line {b s : Text} {ts : List Token} : '\n' ∉ b → Maximal isInfixChar t!"~~" (b ++ s) →
      (∀ c ∈ s.head?, c = '\n') → Tokenizes s ts → Tokenizes (t!"~~" ++ b ++ s) ts
  /-- The character after a block comment is lost. -/
  | block {b x s : Text} {ts : List Token} : CommentBody b → Lost x s → Tokenizes s ts →
      Tokenizes (t!"~{" ++ b ++ t!"}~" ++ x ++ s) ts
  | token {t : Token} {w s : Text} {ts : List Token} : TokenAt t w s → Tokenizes s ts →
      Tokenizes (w ++ s) (t :: ts)

end
end Pemdas
