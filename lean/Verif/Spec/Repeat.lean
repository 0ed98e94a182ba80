import Verif.Spec.Session
import Verif.Spec.Resolve
import Verif.Model.Parser
/-
Spec for C179: inputs that are entered again.
-/
namespace Pemdas
open Session

/-- The line is an input by itself. -/
def Single [CharTables] (line src : Text) : Prop := Ends line src ∨ Block line src

/-- The fixity declarations of an input, none if it cannot be parsed. -/
def declaredIn [CharTables] (src : Text) : List InfixDecl :=
  match parse src with
  | .ok ast _ => ast.infxs
  | _ => []

/-- No `let` of the input names an operator twice. -/
def NoDupIn [CharTables] (src : Text) : Prop :=
  ∀ ast l, parse src = .ok ast l → ∀ e ∈ ast.exprs, e.LetsDistinct

/-- The inputs are lines that are inputs by themselves, without a `let` that names an operator twice. -/
def Lines1 [CharTables] (ls : List Text) : Prop := ∀ line ∈ ls, ∃ src, Single line src ∧ NoDupIn src

/-- Typing the lines, whatever the system answers. -/
def typing (ls : List (World × Text)) : List (World × Input) := ls.map fun x => (x.1, .line x.2)

end Pemdas
