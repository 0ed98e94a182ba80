import Verif.Spec.Resolve
/-
Specification of operator chains: their shape, their mirror image and how they are put together.
Nothing here refers to the resolver.
-/
namespace Pemdas

/-- A grouping with the operands erased. -/
inductive OpShape where
  | leaf
  | node (l : OpShape) (op : Infix) (r : OpShape)
  deriving DecidableEq

namespace OpTree

/-- Where the parentheses go, whatever the operands are. -/
def shape : OpTree → OpShape
  | leaf _ => .leaf
  | node l op r => .node l.shape op r.shape

/-- The grouping read from right to left. -/
def mirror : OpTree → OpTree
  | leaf e => leaf e
  | node l op r => node r.mirror op l.mirror

end OpTree

/-- Left and right exchanged. -/
def Assoc.mirror : Assoc → Assoc
  | .left => .right
  | .right => .left
  | .neither => .neither

/-- Left and right exchanged. -/
def Fixity.mirror (f : Fixity) : Fixity := ⟨f.prec, f.assoc.mirror⟩

/-- `a op₁ b₁ op₂ b₂ …` as it is written, without parentheses. -/
def Expr.ofChain (a : Expr) : List (Infix × Expr) → Expr
  | [] => a
  | (op, b) :: rest => .bin a op (Expr.ofChain b rest)

/-- `((a op₁ b₁) op₂ b₂) …`. -/
def Expr.nestLeft (a : Expr) (rest : List (Infix × Expr)) : Expr :=
  rest.foldl (fun acc x => .bin acc x.1 x.2) a

/-- The text of the chain `l`, the operator `op` and the text of the chain `r` written one after the
other. -/
def Expr.joinChain : Expr → Infix → Expr → Expr
  | .bin a o b, op, r => .bin a o (b.joinChain op r)
  | e, op, r => .bin e op r

mutual
/-- No operand of an infix operator is itself an infix expression: every application of an operator
inside another one is in parentheses. -/
def Expr.Parenthesised : Expr → Prop
  | .lit _ => True
  | .var _ => True
  | .app f x => f.Parenthesised ∧ x.Parenthesised
  | .bin l _ r => l.NonBin ∧ r.NonBin ∧ l.Parenthesised ∧ r.Parenthesised
  | .lam _ b => b.Parenthesised
  | .grp e => e.Parenthesised
  | .neg e => e.Parenthesised
  | .tup es => Expr.ParenthesisedList es
  | .list es => Expr.ParenthesisedList es
  | .let_ _ b => b.Parenthesised
/-- `Parenthesised` for all elements. -/
def Expr.ParenthesisedList : List Expr → Prop
  | [] => True
  | e :: es => e.Parenthesised ∧ Expr.ParenthesisedList es
end

end Pemdas
