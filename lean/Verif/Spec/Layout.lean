import Verif.Spec.Grammar
import Verif.Spec.LexRun
/-
Concrete syntax with layout: tokens carry the column at which they end. The grammar says where an
application goes on and where it stops, so that every token sequence has at most one reading.
Columns count from 1; the column at which a token ends is the column right after it.
-/
namespace Pemdas

/-- A token and the column at which it ends. -/
abbrev CTok := Token × Nat

/-- The column at which the first token ends. -/
def firstCol : List CTok → Nat
  | [] => 0
  | x :: _ => x.2

/-- Tokens that continue a chain: the operators. -/
def Token.joins : Token → Bool
  | .dash | .at_ | .affix _ _ => true
  | _ => false

/-- Tokens an argument can start with. -/
def Token.startsArg : Token → Bool
  | .parenL | .brackL | .lit _ | .upper _ | .lower _ => true
  | _ => false

/-- What may follow an expression: the end, or a token that is no operator and does not start an
argument beyond column `m`. -/
def Follow (m : Nat) : List CTok → Prop
  | [] => True
  | (t, k) :: _ => t.joins = false ∧ (t.startsArg = true → k ≤ m)

/-- Patterns without constructors. -/
def PatWritten (p : Pat) (ts : List Token) : Prop :=
  PatToks .pattern p ts ∧ ∀ s, .upper s ∉ ts

/-- Fixity declarations whose precedence is given, or whose first operator is neither `-` nor
`@`. -/
def DeclWritten (d : InfixDecl) (ts : List Token) : Prop :=
  DeclToks d ts ∧ ts[1]? ≠ some .dash ∧ ts[1]? ≠ some .at_

/-- An element of a list: the expression, its tokens, the column up to which an argument is not
part of it, and the column of the comma after it, if there is one. -/
structure ListItem where
  expr : Expr
  toks : List CTok
  edge : Nat
  comma : Option Nat

/-- An optional comma. -/
def commaToks : Option Nat → List CTok
  | some k => [(.comma, k)]
  | none => []

/-- The tokens of an element of a list with its comma. -/
def ListItem.all (x : ListItem) : List CTok := x.toks ++ commaToks x.comma

/-- A component of a tuple that is not the first: the column of the comma before it, the
expression, its tokens and its edge. -/
structure TupItem where
  comma : Nat
  expr : Expr
  toks : List CTok
  edge : Nat

/-- The tokens of a component with the comma before it. -/
def TupItem.all (x : TupItem) : List CTok := (.comma, x.comma) :: x.toks

/-- `Written cat c m e ts`: the tokens `ts` are read as the expression `e`, where `c` is the column
at which the (first) application starts; the text goes on with anything that is no operator and no
argument beyond column `m`. An application starts at the column at which its first token ends, or,
if it comes after `->`, `in` or the comma of a tuple, at the column at which that token ends. -/
inductive Written : ExprCat → Nat → Nat → Expr → List CTok → Prop
  /-- A chain of operands: the last one. -/
  | last {c e ts} : Written .operand c c e ts → Written .chain c c e ts
  /-- A lambda or `let` at the end of a chain. -/
  | lastOpen {c m e ts} : Written .atom c m e ts → Written .chain c (min c m) e ts
  /-- Another operand. -/
  | bin {c m l op t k r ts us} : Written .operand c c l ts → OpTok op t →
      Written .chain (firstCol us) m r us → Written .chain c m (.bin l op r) (ts ++ (t, k) :: us)
  | head {c e ts} : Written .arg c c e ts → Written .operand c c e ts
  /-- An argument has to end beyond the start of the application. -/
  | app {c f x ts us} : Written .operand c c f ts → Written .arg c c x us → c < firstCol us →
      Written .operand c c (.app f x) (ts ++ us)
  /-- A lambda or `let` is applied if the argument is not part of its body. -/
  | appOpen {c m f x ts us} : Written .atom c m f ts → Written .arg c c x us →
      c < firstCol us → firstCol us ≤ m → Written .operand c c (.app f x) (ts ++ us)
  | lam {c k₀ k m} {ps : List (Pat × List Token)} {pts : List CTok} {e ts} :
      ps ≠ [] → (∀ x ∈ ps, PatWritten x.1 x.2) → pts.map (·.1) = (ps.map (·.2)).flatten →
      Written .chain k m e ts →
      Written .atom c m ((ps.map (·.1)).foldr .lam e)
        ((.lambda, k₀) :: pts ++ (.arrow, k) :: ts)
  | let_ {c k₀ k m d e} {ds ts : List CTok} : DeclWritten d (ds.map (·.1)) →
      Written .chain k m e ts →
      Written .atom c m (.let_ d e) ((.let_, k₀) :: ds ++ (.in_, k) :: ts)
  | lit (c k l) : Written .arg c c (.lit l) [(.lit l, k)]
  | upper (c k s) : Written .arg c c (.var (.upper s)) [(.upper s, k)]
  | lower (c k s) : Written .arg c c (.var (.lower s)) [(.lower s, k)]
  | unit (c k₀ k) : Written .arg c c (.tup []) [(.parenL, k₀), (.parenR, k)]
  | op (c k₀ k₁ k s b) : Written .arg c c (.var (.infix_ s))
      [(.parenL, k₀), (.affix s b, k₁), (.parenR, k)]
  | commas {c k₀ k} {ks : List Nat} : ks ≠ [] →
      Written .arg c c (.var (.commas ks.length))
        ((.parenL, k₀) :: ks.map (fun j => (.comma, j)) ++ [(.parenR, k)])
  | grp {c k₀ k m e ts} : Written .chain (firstCol ts) m e ts →
      Written .arg c c (.grp e) ((.parenL, k₀) :: ts ++ [(.parenR, k)])
  | tup {c k₀ k m e ts} {xs : List TupItem} : Written .chain (firstCol ts) m e ts →
      xs ≠ [] → (∀ x ∈ xs, Written .chain x.comma x.edge x.expr x.toks) →
      Written .arg c c (.tup (e :: xs.map (·.expr)))
        ((.parenL, k₀) :: ts ++ (xs.map (·.all)).flatten ++ [(.parenR, k)])
  /-- Lists: an element is followed by a comma or by something that cannot be part of it. -/
  | list {c k₀ k} {xs : List ListItem} :
      (∀ x ∈ xs, Written .chain (firstCol x.toks) x.edge x.expr x.toks) →
      (∀ a x b, xs = a ++ x :: b → x.comma = none →
        Follow x.edge ((b.map (·.all)).flatten ++ [(.brackR, k)])) →
      Written .arg c c (.list (xs.map (·.expr)))
        ((.brackL, k₀) :: (xs.map (·.all)).flatten ++ [(.brackR, k)])

/-- An optional semicolon. -/
def semiToks : Option Nat → List CTok
  | some k => [(.semi, k)]
  | none => []

/-- Programs: declarations, each followed by a semicolon or by something that cannot be part of
it. -/
inductive WrittenProg : List Decl → List CTok → Prop
  | nil : WrittenProg [] []
  | infix_ {d ds us} {ts : List CTok} (semi : Option Nat) : DeclWritten d (ts.map (·.1)) →
      WrittenProg ds us → WrittenProg (.infix_ d :: ds) (ts ++ semiToks semi ++ us)
  | expr {e m ds ts us} (semi : Option Nat) : Written .chain (firstCol ts) m e ts →
      WrittenProg ds us → (semi = none → Follow m us) →
      WrittenProg (.expr e :: ds) (ts ++ semiToks semi ++ us)

/-- The tokens of a source: what the iterator yields before it yields `None`, each with the column
at which it ends. -/
def Lexes [CharTables] (src : Text) (ts : List CTok) : Prop :=
  ∃ xs n, xs.length < n ∧ Lexer.items n (Lexer.new src) = .ok xs ∧
    ts = xs.map fun x => (x.1, x.2.hi.col)

/-- The column at which the lexer of a source starts: that of its first character that is no
whitespace. -/
def startCol (src : Text) : Nat := (locOf (unCR (src.takeWhile isWhitespace))).col

end Pemdas
