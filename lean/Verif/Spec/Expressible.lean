import Verif.Spec.LexKinds
import Verif.Spec.Shapes
import Verif.Spec.Parsed
/-
Which syntax trees can be written, on one line or (`ml`) on several.
-/
namespace Pemdas
section
variable [CharTables]

/-- The name of a promoted operator: an identifier, or a character and a whitespace character (the
two characters after an apostrophe), neither of which ends the line if there is only one. -/
def PromotedOp (ml : Bool) (s : Text) : Prop :=
  PromotedName s ∨ ∃ c w, s = [c, w] ∧ c ∉ t!"'\\\x00" ∧ isWhitespace w = true ∧
    if ml then s ≠ t!"\n\r" else '\n' ∉ s

/-- Operators: `-`, `@`, those made of operator characters that are not reserved, and promoted
ones. -/
def Infix.Expressible (ml : Bool) : Infix → Prop
  | .standard s => s ∈ [t!"-", t!"@"] ∨ OpName s
  | .promoted s => PromotedOp ml s

/-- Names: identifiers in lower case, operators other than `-` and `@` in parentheses, and commas in
parentheses. -/
def Ident.Expressible (ml : Bool) : Ident → Prop
  | .lower s => LowerName s
  | .infix_ s => OpName s ∨ PromotedOp ml s
  | .commas k => 0 < k
  | .upper _ | .nil => False

/-- Literals: integers of 64 bits, all characters, all strings. -/
def Literal.Expressible : Literal → Prop
  | .int n => n < 2 ^ 64
  | .frac _ => False
  | .char _ | .str _ => True

mutual
/-- Patterns without constructors and literals; literals can be elements of tuples (but not the
first) and of lists. -/
def Pat.Expressible (ml : Bool) : Pat → Prop
  | .wild => True
  | .var s => LowerName s ∨ OpName s ∨ PromotedOp ml s
  | .neg p => p.Expressible ml
  | .as_ s p => LowerName s ∧ p.Expressible ml
  | .tup (p :: q :: ps) => p.Expressible ml ∧ Pat.ExpressibleElems ml (q :: ps)
  | .tup _ => False
  | .arr ps => Pat.ExpressibleElems ml ps
  | .lit _ | .con _ _ | .lnk _ _ => False
/-- Elements of a list. -/
def Pat.ExpressibleElems (ml : Bool) : List Pat → Prop
  | [] => True
  | p :: ps => (p.Expressible ml ∨ ∃ l, p = .lit l ∧ l.Expressible) ∧ Pat.ExpressibleElems ml ps
end

/-- Declarations of at least one operator, with a precedence of one digit. -/
def InfixDecl.Expressible (ml : Bool) (d : InfixDecl) : Prop :=
  d.infixes ≠ [] ∧ d.fixity.prec ≤ 9 ∧ ∀ op ∈ d.infixes, op.Expressible ml

mutual
/-- Expressions: chains are nested to the right; lambdas and `let`s are no left operands and,
on one line, not applied; applications have heads that are not infix and arguments that need no
parentheses; tuples do not have exactly one component; there are no negations. -/
def Expr.Expressible (ml : Bool) : Expr → Prop
  | .lit l => l.Expressible
  | .var i => i.Expressible ml
  | .app f x => f.NonBin ∧ (ml = true ∨ f.isOpen = false) ∧ x.isArg = true ∧ f.Expressible ml ∧
      x.Expressible ml
  | .bin l op r => op.Expressible ml ∧ l.NonBin ∧ l.isOpen = false ∧ l.Expressible ml ∧
      r.Expressible ml
  | .lam p b => p.Expressible ml ∧ b.Expressible ml
  | .grp e => e.Expressible ml
  | .neg _ => False
  | .tup es => es.length ≠ 1 ∧ Expr.ExpressibleList ml es
  | .list es => Expr.ExpressibleList ml es
  | .let_ d b => d.Expressible ml ∧ b.Expressible ml
/-- All elements. -/
def Expr.ExpressibleList (ml : Bool) : List Expr → Prop
  | [] => True
  | e :: es => e.Expressible ml ∧ Expr.ExpressibleList ml es
end

/-- Declarations. -/
def Decl.Expressible (ml : Bool) : Decl → Prop
  | .infix_ d => d.Expressible ml
  | .expr e => e.Expressible ml

end
end Pemdas
