import Verif.Spec.Placed
/-
The lexical grammar for all sources. The lexer does not see carriage returns that directly follow a
line feed, and does not count them when it looks up the text of what it has read in the source. So
the grammar is about the text without these carriage returns, and tells the characters that are read
from the text that is found for them.
-/
namespace Pemdas

/-- `Found src pre x y`: in `src`, as many bytes from its start as `pre` has, there is the text `y`
with as many bytes as `x`. -/
def Found (src pre x y : Text) : Prop :=
  ∃ a b, src = a ++ y ++ b ∧ utf8Len a = utf8Len pre ∧ utf8Len y = utf8Len x

/-- All spellings of the reserved operators but the one that opens a comment. -/
def reservedSpellings : List (Token × Text) :=
  [(.lambda, t!"\\"), (.lambda, t!"λ"), (.dash, t!"-"), (.arrow, t!"->"), (.arrow, t!"→"),
   (.arrow, t!"⟶"), (.arrow, t!"↦"), (.arrow, t!"⟼"), (.at_, t!"@")]

/-- Digits, possibly after a plus sign. -/
def Signed (p : Char → Bool) (y ds : Text) : Prop :=
  (y = ds ∨ y = '+' :: ds) ∧ ds ≠ [] ∧ ds.all p = true

section
variable [CharTables]

/-- `TokenIn src pre t w rest`: after `pre`, the characters `w` are a token `t` if `rest` follows. -/
inductive TokenIn (src pre : Text) : Token → Text → Text → Prop
  | punct {t : Token} {c : Char} {rest : Text} : (t, c) ∈ punctuation → TokenIn src pre t [c] rest
  /-- The text that is found decides which word it is, the first character whether it may be a name. -/
  | word {t : Token} {c : Char} {x y rest : Text} : isIdentStart c = true → Shape isIdentChar x →
      Maximal isIdentChar (c :: x) rest → Found src pre (c :: x) y →
      ((t, y) ∈ keywordTokens ∨ y ∉ keywords ∧ isLowercase c = true ∧ t = .lower y) →
      TokenIn src pre t (c :: x) rest
  | op {t : Token} {c : Char} {x y rest : Text} : isInfixChar c = true → Shape isInfixChar x →
      Maximal isInfixChar (c :: x) rest → Found src pre (c :: x) y →
      ((t, y) ∈ reservedSpellings ∨
        y ∉ reservedOps ∧ (y = t!"~" → rest.head? ≠ some '{') ∧ t = .affix y false) →
      TokenIn src pre t (c :: x) rest
  | backticks {x y rest : Text} : PromotedName x → Found src (pre ++ t!"`") x y →
      TokenIn src pre (.affix y true) ('`' :: (x ++ t!"`")) rest
  | apostrophe {x y rest : Text} : PromotedName x → Maximal isIdentChar x rest →
      (∀ c ∈ (x.tail ++ rest).head?, c ≠ '\'' ∧ isWhitespace c = false) →
      Found src (pre ++ t!"'") x y → TokenIn src pre (.affix y true) ('\'' :: x) rest
  | blank {c w : Char} {y rest : Text} : c ∉ t!"'\\\x00" → isWhitespace w = true →
      Found src (pre ++ t!"'") [c, w] y → TokenIn src pre (.affix y true) ['\'', c, w] rest
  | int {x y ds rest : Text} : x ≠ [] → x.all isDigit10 = true →
      (∀ c ∈ rest.head?, isDigit10 c = false) → Found src pre x y → Signed isDigit10 y ds →
      decValue ds < 2 ^ 64 → TokenIn src pre (.lit (.int (decValue ds))) x rest
  | char {c : Char} {rest : Text} : c ∉ t!"'\\\x00" →
      TokenIn src pre (.lit (.char c)) ['\'', c, '\''] rest
  | charEscape {c d : Char} {rest : Text} : (c, d) ∈ escapes →
      TokenIn src pre (.lit (.char d)) ['\'', '\\', c, '\''] rest
  | charCode {u c : Char} {plus x y ds l rest : Text} : u ∈ t!"uU" → plus ∈ [[], t!"+"] →
      x ≠ [] → x.all isHexDigit = true → x.length ≤ 6 →
      Found src (pre ++ ('\'' :: '\\' :: u :: plus)) x y → Signed isHexDigit y ds →
      c.toNat = hexValue ds → Lost l rest →
      TokenIn src pre (.lit (.char c)) ('\'' :: '\\' :: u :: (plus ++ x ++ '\'' :: l)) rest
  | str {w s rest : Text} : StrBody w s → TokenIn src pre (.lit (.str s)) ('"' :: (w ++ t!"\"")) rest

/-- `Reading src pre s cs`: after the characters `pre`, the characters `s` are read as the tokens
`cs`, which end at the given columns. -/
inductive Reading (src : Text) : Text → Text → List CTok → Prop
  | nil {pre : Text} : Reading src pre [] []
  | space {c : Char} {pre s : Text} {cs : List CTok} : isWhitespace c = true →
      Reading src (pre ++ [c]) s cs → Reading src pre (c :: s) cs
  | line {c : Char} {x pre b s : Text} {cs : List CTok} : isInfixChar c = true →
      Shape isInfixChar x → Maximal isInfixChar (c :: x) (b ++ s) → Found src pre (c :: x) t!"~~" →
      '\n' ∉ b → (∀ d ∈ s.head?, d = '\n') → Reading src (pre ++ (c :: x ++ b)) s cs →
      Reading src pre (c :: x ++ b ++ s) cs
  | block {c : Char} {x pre b l s : Text} {cs : List CTok} : isInfixChar c = true →
      Shape isInfixChar x → Found src pre (c :: x) t!"~" → CommentBody b → Lost l s →
      Reading src (pre ++ (c :: x ++ t!"{" ++ b ++ t!"}~" ++ l)) s cs →
      Reading src pre (c :: x ++ t!"{" ++ b ++ t!"}~" ++ l ++ s) cs
  | token {t : Token} {pre w s : Text} {cs : List CTok} : TokenIn src pre t w s →
      Reading src (pre ++ w) s cs → Reading src pre (w ++ s) ((t, colAfter (pre ++ w)) :: cs)

end
end Pemdas
