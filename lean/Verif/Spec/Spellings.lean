import Verif.Spec.Line
/-
Well-bracketed sequences of tokens, and keywords of fixity declarations.
-/
namespace Pemdas

/-- Tokens that are neither parentheses nor square brackets. -/
def Token.flat : Token → Bool
  | .parenL | .parenR | .brackL | .brackR => false
  | _ => true

/-- Parentheses and square brackets are closed in the reverse order in which they are opened. -/
inductive Matched : List Token → Prop
  | nil : Matched []
  | flat {t ts} : t.flat = true → Matched ts → Matched (t :: ts)
  | paren {ts us} : Matched ts → Matched us → Matched (.parenL :: ts ++ .parenR :: us)
  | brack {ts us} : Matched ts → Matched us → Matched (.brackL :: ts ++ .brackR :: us)

/-- The keywords that start fixity declarations. -/
def Token.isFixityKw : Token → Bool
  | .infixL | .infixR | .infix_ => true
  | _ => false

/-- The tokens `us` occur in `ts`, one directly after the other. -/
def Contains (ts us : List Token) : Prop := ∃ a b, ts = a ++ us ++ b

end Pemdas
