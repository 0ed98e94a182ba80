import Verif.Spec.Spellings
/-
The formal syntax of README.md ("Formal syntax"), transcribed rule by rule over tokens. The README
does not say what a pattern is; here it is what the code takes for one. It also allows `_` where an
expression is expected, which is left out here (see `C138_underscore_wrong`).
-/
namespace Pemdas
namespace Readme

/-- `infix`: a promoted name or operator characters; the lexer has tokens of their own for `-` and
`@`. -/
inductive Op : Token → Prop
  | affix (s b) : Op (.affix s b)
  | dash : Op .dash
  | at_ : Op .at_

/-- `infixes = infix , {"," infix}`. -/
inductive Ops : List Token → Prop
  | one {t} : Op t → Ops [t]
  | more {t ts} : Op t → Ops ts → Ops (t :: .comma :: ts)

/-- `assoc = "infixl" | "infixr" | "infix"`. -/
def keywords : List Token := [.infixL, .infixR, .infix_]

/-- `fixity = assoc , prec , infixes`, `prec = [digit]`. -/
inductive Fix : List Token → Prop
  | digit {k n ts} : k ∈ keywords → n ≤ 9 → Ops ts → Fix (k :: .lit (.int n) :: ts)
  | none {k ts} : k ∈ keywords → Ops ts → Fix (k :: ts)

/-- Nonterminals for expressions. -/
inductive Cat where
  | expr | fexp | aexp | exprs
  deriving DecidableEq

/-- `expr`, `fexp` and `aexp`; `exprs` is `expr , {"," expr}`. -/
inductive Derives : Cat → List Token → Prop
  /-- `"\", (pat)+, "->", expr` -/
  | lambda {pats ts} : pats ≠ [] → (∀ p ∈ pats, ∃ q, PatWritten q p) → Derives .expr ts →
      Derives .expr (.lambda :: pats.flatten ++ .arrow :: ts)
  /-- `"let", fixity, "in", expr` -/
  | let_ {fs ts} : Fix fs → Derives .expr ts → Derives .expr (.let_ :: fs ++ .in_ :: ts)
  | fexp {ts} : Derives .fexp ts → Derives .expr ts
  /-- `fexp = [fexp] aexp` -/
  | aexp {ts} : Derives .aexp ts → Derives .fexp ts
  | app {ts us} : Derives .fexp ts → Derives .aexp us → Derives .fexp (ts ++ us)
  /-- `ident` -/
  | lower (s) : Derives .aexp [.lower s]
  | upper (s) : Derives .aexp [.upper s]
  /-- `literal` -/
  | lit (l) : Derives .aexp [.lit l]
  /-- `"(", infix, ")"` -/
  | op {t} : Op t → Derives .aexp [.parenL, t, .parenR]
  /-- `"(", expr, ")"` -/
  | grp {ts} : Derives .expr ts → Derives .aexp (.parenL :: ts ++ [.parenR])
  /-- `"(", expr, ("," , expr)+, ")"` -/
  | tup {ts us} : Derives .expr ts → Derives .exprs us →
      Derives .aexp (.parenL :: ts ++ .comma :: us ++ [.parenR])
  /-- `"[", expr, { ",", expr }, "]"` -/
  | list {ts} : Derives .exprs ts → Derives .aexp (.brackL :: ts ++ [.brackR])
  /-- `expr infix expr` -/
  | bin {ts t us} : Derives .expr ts → Op t → Derives .expr us → Derives .aexp (ts ++ t :: us)
  | one {ts} : Derives .expr ts → Derives .exprs ts
  | more {ts us} : Derives .expr ts → Derives .exprs us → Derives .exprs (ts ++ .comma :: us)

/-- Tokens an expression can end with. -/
def _root_.Pemdas.Token.endsExpr : Token → Bool
  | .parenR | .brackR | .lit _ | .upper _ | .lower _ => true
  | _ => false

/-- Adjacent tokens on which the code and the README disagree. -/
inductive Odd : List Token → Prop
  /-- `()`, `[]`, `(,`, `,]` and `;` are accepted, but not in the README. -/
  | unit : Odd [.parenL, .parenR]
  | nil : Odd [.brackL, .brackR]
  | commas : Odd [.parenL, .comma]
  | trailing : Odd [.comma, .brackR]
  | semi : Odd [.semi]
  /-- `(-)`, `(@)`, `infixl -` and `infixl @` are in the README, but not accepted. -/
  | name {t} : t = .dash ∨ t = .at_ → Odd [.parenL, t, .parenR]
  | declared {k t} : k ∈ keywords → t = .dash ∨ t = .at_ → Odd [k, t]
  /-- `f \x -> x + y` is an application in the README; the code ends the expression before a lambda
  or `let`. -/
  | opens {t u} : t.endsExpr = true → u = .lambda ∨ u = .let_ → Odd [t, u]

/-- No such tokens occur. -/
def Even (ts : List Token) : Prop := ∀ us, Odd us → ¬ Contains ts us

end Readme
end Pemdas
