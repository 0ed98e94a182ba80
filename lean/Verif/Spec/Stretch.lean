import Verif.Spec.Resolve
/-
Spec for C195: parts of chains.
-/
namespace Pemdas

/-- The chain of the first expression is a part of that of the second, without gaps. -/
def StretchOf (x e : Expr) : Prop := ∃ before after, e.toks = before ++ x.toks ++ after

end Pemdas
