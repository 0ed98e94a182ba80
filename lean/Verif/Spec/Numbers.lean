import Verif.Spec.Renumber
import Verif.Spec.Repeat
/-
Spec for C192: lines that differ in the precedences that are declared only.
-/
namespace Pemdas
variable [CharTables]

/-- The second input is the first one, with other numbers in its declarations, at top level and in front of expressions; or
it is the same input, and cannot be parsed. The numbers of the first one are among those of `U`. -/
inductive Renumbered (f : Nat → Nat) (U : Nat → Prop) : Text → Text → Prop
  | parsed {src src' : Text} {ast : Ast} {l l' : Lexer} : parse src = .ok ast l → parse src' = .ok (Renum.ast f ast) l' →
      Renum.InAst U ast → Renumbered f U src src'
  | refused {src : Text} : (∀ ast l, parse src ≠ .ok ast l) → Renumbered f U src src

/-- Line by line, each of which is an input by itself, whatever the system is like. -/
inductive AllRenumbered (f : Nat → Nat) (U : Nat → Prop) : List (World × Text) → List (World × Text) → Prop
  | nil : AllRenumbered f U [] []
  | cons {w w' : World} {line line' src src' : Text} {xs ys : List (World × Text)} : Single line src → Single line' src' →
      Renumbered f U src src' → AllRenumbered f U xs ys → AllRenumbered f U ((w, line) :: xs) ((w', line') :: ys)

end Pemdas
