import Verif.Spec.Rename
import Verif.Spec.Repeat
/-
Spec for C193: lines that differ in names only.
-/
namespace Pemdas
variable [CharTables]

/-- The second input is the first one with other names. -/
def Renamed (ρ : Renaming) (src src' : Text) : Prop :=
  ∃ ast l l', parse src = .ok ast l ∧ parse src' = .ok (ρ.ast ast) l'

/-- Line by line, each of which is an input by itself, whatever the system is like. -/
inductive AllRenamed (ρ : Renaming) : List (World × Text) → List (World × Text) → Prop
  | nil : AllRenamed ρ [] []
  | cons {w w' : World} {line line' src src' : Text} {xs ys : List (World × Text)} : Single line src → Single line' src' →
      Renamed ρ src src' → AllRenamed ρ xs ys → AllRenamed ρ ((w, line) :: xs) ((w', line') :: ys)

/-- What an input comes to: the kinds of its declarations, what its expressions become, and the errors met. -/
structure Outcome where
  kinds : List DeclKind
  exprs : List Expr
  errors : List AssocError

/-- The same with other names. -/
def Outcome.renamed (ρ : Renaming) (o : Outcome) : Outcome := ⟨o.kinds, ρ.exprs o.exprs, o.errors.map ρ.error⟩

end Pemdas
