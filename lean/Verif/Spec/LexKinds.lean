import Verif.Model.Grapheme
import Verif.Spec.Lex
/-
Which tokens can be written in a source.
-/
namespace Pemdas
variable [CharTables]

/-- The reserved words. -/
def keywords : List Text := [t!"_", t!"infixl", t!"infixr", t!"infix", t!"let", t!"in"]

/-- The reserved operators. -/
def reservedOps : List Text :=
  [t!"~~", t!"\\", t!"λ", t!"-", t!"->", t!"→", t!"⟶", t!"↦", t!"⟼", t!"@"]

/-- An identifier: a lower-case letter, identifier characters, sub- and superscripts. -/
def LowerName (s : Text) : Prop :=
  ∃ c y, s = c :: y ∧ isLowercase c = true ∧ Shape isIdentChar y ∧ s ∉ keywords

/-- An operator: operator characters, then sub- and superscripts. -/
def OpName (s : Text) : Prop :=
  ∃ c y, s = c :: y ∧ isInfixChar c = true ∧ Shape isInfixChar y ∧ s ∉ reservedOps

/-- The name of a promoted identifier, which may be a reserved word. -/
def PromotedName (s : Text) : Prop :=
  ∃ c y, s = c :: y ∧ isIdentStart c = true ∧ Shape isIdentChar y

/-- What is known about a token read from the source `src`. -/
def Token.LexedFrom (src : Text) : Token → Prop
  | .upper _ => False
  | .lower s => LowerName s
  | .affix s false => OpName s
  | .affix s true =>
    PromotedName s ∨ ∃ c w, s = [c, w] ∧ isWhitespace w = true ∧ ['\'', c, w] <:+: src
  | .lit (.int n) => n < 2 ^ 64
  | .lit (.frac _) => False
  | .error (.invalidUnicode _ (.tooLong s)) => s.all isHexDigit = true
  | .error (.invalidUnicode _ (.notInCharRange s _)) => s.all isHexDigit = true
  | _ => True

end Pemdas
