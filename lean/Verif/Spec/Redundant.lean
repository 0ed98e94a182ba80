import Verif.Spec.Drawn
/-
Specification: putting operands of operators in parentheses.
-/
namespace Pemdas

/-- The second expression is the first one with one operand of an operator in parentheses, somewhere. Operands
that are names, literals, tuples, lists or in parentheses already are not meant. -/
inductive Expr.Enclose : Expr → Expr → Prop
  | left {l op r} : l.closed = false → Enclose (.bin l op r) (.bin (.grp l) op r)
  | right {l op r} : r.closed = false → Enclose (.bin l op r) (.bin l op (.grp r))
  | inLeft {l l' op r} : Enclose l l' → Enclose (.bin l op r) (.bin l' op r)
  | inRight {l op r r'} : Enclose r r' → Enclose (.bin l op r) (.bin l op r')
  | fn {f f' x} : Enclose f f' → Enclose (.app f x) (.app f' x)
  | arg {f x x'} : Enclose x x' → Enclose (.app f x) (.app f x')
  | lam {p b b'} : Enclose b b' → Enclose (.lam p b) (.lam p b')
  | grp {e e'} : Enclose e e' → Enclose (.grp e) (.grp e')
  | let_ {d b b'} : Enclose b b' → Enclose (.let_ d b) (.let_ d b')
  | tup {xs x x' ys} : Enclose x x' → Enclose (.tup (xs ++ x :: ys)) (.tup (xs ++ x' :: ys))
  | list {xs x x' ys} : Enclose x x' → Enclose (.list (xs ++ x :: ys)) (.list (xs ++ x' :: ys))

/-- The second expression is the first one with some operands of operators in parentheses. -/
inductive Expr.Enclosed : Expr → Expr → Prop
  | same {e} : Enclosed e e
  | more {e e' e''} : Enclosed e e' → e'.Enclose e'' → Enclosed e e''

/-- The same for expressions one by one. -/
inductive AllEnclosed : List Expr → List Expr → Prop
  | nil : AllEnclosed [] []
  | cons {x x' xs xs'} : x.Enclosed x' → AllEnclosed xs xs' → AllEnclosed (x :: xs) (x' :: xs')

end Pemdas
