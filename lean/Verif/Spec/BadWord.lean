import Verif.Spec.LexGrammar
/-
Words that make the lexer panic, and what may stand before a token.
-/
namespace Pemdas
/-- A word that makes the lexer panic starts here: its first character is not lower case, and it
is not the wildcard `_`. -/
def BadWord [CharTables] (s : Text) : Prop :=
  ∃ c cs, s = c :: cs ∧ isIdentStart c = true ∧ isLowercase c = false ∧
    (c = '_' → ∃ d ∈ cs.head?, isIdentChar d = true ∨ isTrailing d = true)

section
variable [CharTables]

/-- `Skips g rest`: whitespace and comments `g`, if `rest` follows. -/
inductive Skips : Text → Text → Prop
  | nil {rest : Text} : Skips [] rest
  | space {c : Char} {g rest : Text} : isWhitespace c = true → Skips g rest → Skips (c :: g) rest
  | line {b g rest : Text} : '\n' ∉ b → Maximal isInfixChar t!"~~" (b ++ (g ++ rest)) →
      (∀ c ∈ (g ++ rest).head?, c = '\n') → Skips g rest → Skips (t!"~~" ++ b ++ g) rest
  | block {b x g rest : Text} : CommentBody b → Lost x (g ++ rest) → Skips g rest →
      Skips (t!"~{" ++ b ++ t!"}~" ++ x ++ g) rest

end
end Pemdas
