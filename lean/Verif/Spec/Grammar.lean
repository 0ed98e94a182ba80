import Verif.Model.Token
import Verif.Model.Ast
/-
The concrete syntax as a grammar: which token sequences stand for which syntax trees. The grammar
says nothing about lookahead, layout or how parsing proceeds.
-/
namespace Pemdas

/-- Token sequences separated by a token. -/
def sepBy (sep : Token) : List (List Token) → List Token
  | [] => []
  | [ts] => ts
  | ts :: rest => ts ++ sep :: sepBy sep rest

/-- The token for an operator: `-`, `@` or an operator token. -/
inductive OpTok : Infix → Token → Prop
  | dash : OpTok (.standard t!"-") .dash
  | at_ : OpTok (.standard t!"@") .at_
  | standard (s) : OpTok (.standard s) (.affix s false)
  | promoted (s) : OpTok (.promoted s) (.affix s true)

/-- The keyword for an associativity. -/
def Assoc.kwTok : Assoc → Token
  | .left => .infixL
  | .right => .infixR
  | .neither => .infix_

/-- Fixity declarations: keyword, optional precedence, operators separated by commas. -/
inductive DeclToks : InfixDecl → List Token → Prop
  | withPrec {a : Assoc} {p : Nat} {ops : List (Infix × Token)} :
      p ≤ 9 → ops ≠ [] → (∀ x ∈ ops, OpTok x.1 x.2) →
      DeclToks ⟨ops.map (·.1), ⟨p, a⟩⟩
        (a.kwTok :: .lit (.int p) :: sepBy .comma (ops.map fun x => [x.2]))
  | noPrec {a : Assoc} {ops : List (Infix × Token)} :
      ops ≠ [] → (∀ x ∈ ops, OpTok x.1 x.2) →
      DeclToks ⟨ops.map (·.1), ⟨9, a⟩⟩ (a.kwTok :: sepBy .comma (ops.map fun x => [x.2]))

/-- Kinds of patterns: arguments of a lambda or constructor, what may follow an opening
parenthesis, other elements of collections, constructor applications. -/
inductive PatCat where
  | pattern | first | inner | con
  deriving DecidableEq

/-- Patterns. -/
inductive PatToks : PatCat → Pat → List Token → Prop
  | wild : PatToks .pattern .wild [.underscore]
  | con0 (s) : PatToks .pattern (.con s []) [.upper s]
  | var (s) : PatToks .pattern (.var s) [.lower s]
  | as_ (s) {p ts} : PatToks .pattern p ts → PatToks .pattern (.as_ s p) (.lower s :: .at_ :: ts)
  | firstOp (s b) : PatToks .first (.var s) [.affix s b]
  | firstNeg {p ts} : PatToks .pattern p ts → PatToks .first (.neg p) (.dash :: ts)
  | firstCon {p ts} : PatToks .con p ts → PatToks .first p ts
  | first {p ts} : PatToks .pattern p ts → PatToks .first p ts
  | paren {p ts} : PatToks .first p ts → PatToks .pattern p (.parenL :: ts ++ [.parenR])
  | tup {p ts} {ps : List (Pat × List Token)} : PatToks .first p ts →
      ps ≠ [] → (∀ x ∈ ps, PatToks .inner x.1 x.2) →
      PatToks .pattern (.tup (p :: ps.map (·.1)))
        (.parenL :: sepBy .comma (ts :: ps.map (·.2)) ++ [.parenR])
  | arrNil : PatToks .pattern (.arr []) [.brackL, .brackR, .brackR]
  | arr {ps : List (Pat × List Token)} : ps ≠ [] → (∀ x ∈ ps, PatToks .inner x.1 x.2) →
      PatToks .pattern (.arr (ps.map (·.1)))
        (.brackL :: sepBy .comma (ps.map (·.2)) ++ [.brackR])
  | con (s) {ps : List (Pat × List Token)} : (∀ x ∈ ps, PatToks .pattern x.1 x.2) →
      PatToks .con (.con s (ps.map (·.1))) (.upper s :: (ps.map (·.2)).flatten)
  | conTup {p ts} {ps : List (Pat × List Token)} : PatToks .con p ts →
      ps ≠ [] → (∀ x ∈ ps, PatToks .pattern x.1 x.2) →
      PatToks .con (.tup (p :: ps.map (·.1))) (sepBy .comma (ts :: ps.map (·.2)))
  | inner {p ts} : PatToks .pattern p ts → PatToks .inner p ts
  | innerCon {p ts} : PatToks .con p ts → PatToks .inner p ts
  | lit (l) : PatToks .inner (.lit l) [.lit l]
  | minus {p ts} : PatToks .pattern p ts → PatToks .inner p (.dash :: ts)

/-- Kinds of expressions: operator chains, their operands (applications), atoms, and atoms that
may be arguments. -/
inductive ExprCat where
  | chain | operand | atom | arg
  deriving DecidableEq

/-- Expressions. -/
inductive ExprToks : ExprCat → Expr → List Token → Prop
  | single {e ts} : ExprToks .operand e ts → ExprToks .chain e ts
  | bin {l op t r ts us} : ExprToks .operand l ts → OpTok op t → ExprToks .chain r us →
      ExprToks .chain (.bin l op r) (ts ++ t :: us)
  | head {e ts} : ExprToks .atom e ts → ExprToks .operand e ts
  | app {f x ts us} : ExprToks .operand f ts → ExprToks .arg x us →
      ExprToks .operand (.app f x) (ts ++ us)
  | arg {e ts} : ExprToks .arg e ts → ExprToks .atom e ts
  | lam {ps : List (Pat × List Token)} {e ts} : ps ≠ [] → (∀ x ∈ ps, PatToks .pattern x.1 x.2) →
      ExprToks .chain e ts →
      ExprToks .atom ((ps.map (·.1)).foldr .lam e)
        (.lambda :: (ps.map (·.2)).flatten ++ .arrow :: ts)
  | let_ {d e ds ts} : DeclToks d ds → ExprToks .chain e ts →
      ExprToks .atom (.let_ d e) (.let_ :: ds ++ .in_ :: ts)
  | lit (l) : ExprToks .arg (.lit l) [.lit l]
  | upper (s) : ExprToks .arg (.var (.upper s)) [.upper s]
  | lower (s) : ExprToks .arg (.var (.lower s)) [.lower s]
  | unit : ExprToks .arg (.tup []) [.parenL, .parenR]
  | op (s b) : ExprToks .arg (.var (.infix_ s)) [.parenL, .affix s b, .parenR]
  | commas {k : Nat} : 0 < k →
      ExprToks .arg (.var (.commas k)) (.parenL :: List.replicate k .comma ++ [.parenR])
  | grp {e ts} : ExprToks .chain e ts → ExprToks .arg (.grp e) (.parenL :: ts ++ [.parenR])
  | tup {es : List (Expr × List Token)} : 2 ≤ es.length → (∀ x ∈ es, ExprToks .chain x.1 x.2) →
      ExprToks .arg (.tup (es.map (·.1))) (.parenL :: sepBy .comma (es.map (·.2)) ++ [.parenR])
  /-- Lists, in which every element may or may not be followed by a comma. -/
  | list {es : List (Expr × List Token × Bool)} : (∀ x ∈ es, ExprToks .chain x.1 x.2.1) →
      ExprToks .arg (.list (es.map (·.1)))
        (.brackL :: (es.map fun x => x.2.1 ++ if x.2.2 then [.comma] else []).flatten ++ [.brackR])

/-- Programs: declarations, each optionally followed by a semicolon. -/
inductive ProgToks : List Decl → List Token → Prop
  | nil : ProgToks [] []
  | infix_ {d ds ts us} (semi : Bool) : DeclToks d ts → ProgToks ds us →
      ProgToks (.infix_ d :: ds) (ts ++ (if semi then [.semi] else []) ++ us)
  | expr {e ds ts us} (semi : Bool) : ExprToks .chain e ts → ProgToks ds us →
      ProgToks (.expr e :: ds) (ts ++ (if semi then [.semi] else []) ++ us)

end Pemdas
