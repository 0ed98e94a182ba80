import Verif.Spec.Parsed
import Verif.Spec.Resolve
/-
Spec for C196: fixities for which every precedence has a side.
-/
namespace Pemdas

/-- The fixity associates to the side of its precedence, left if `side` says so and right otherwise. -/
def Fixity.OneSided (side : Nat → Prop) (f : Fixity) : Prop :=
  (f.assoc = .left ∧ side f.prec) ∨ (f.assoc = .right ∧ ¬ side f.prec)

end Pemdas
