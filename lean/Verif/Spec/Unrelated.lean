import Verif.Spec.Resolve
import Verif.Model.Parser
/-
Spec for C189: the operators that an input uses.
-/
namespace Pemdas

/-- All operators that are used in the expressions of the input have their texts in `S`; so have none if the input cannot
be parsed. -/
def OnlyOps [CharTables] (S : Symbol → Prop) (src : Text) : Prop :=
  ∀ ast l, parse src = .ok ast l → ∀ e ∈ ast.exprs, ∀ o, UsesOp o e → S o.symbol

end Pemdas
