import Verif.Spec.LexKinds
/-
The lexical syntax of README.md ("Formal syntax": `infix` and `ident`), over characters.
-/
namespace Pemdas
namespace Readme

/-- `opchar`. -/
def opchar : Text := t!"!#$%&*+./<=>?@\\^|-~"

/-- `trails = supscr | subscr`. -/
def trails : Text := t!"⁰¹²³⁴⁵⁶⁷⁸⁹⁽⁾⁺⁻₀₁₂₃₄₅₆₇₈₉₍₎₊₋"

/-- `digit`. -/
def digit : Text := t!"0123456789"

/-- `(opchars \ "~~"), { trails }` where `opchars = opchar , { opchar }`. -/
def Symbolic (w : Text) : Prop :=
  ∃ o t, w = o ++ t ∧ o ≠ [] ∧ (∀ c ∈ o, c ∈ opchar) ∧ o ≠ t!"~~" ∧ ∀ c ∈ t, c ∈ trails

/-- `ident`: a letter or `_`, then letters, digits and `_`, then sub- and superscripts. -/
def Ident [CharTables] (s : Text) : Prop :=
  ∃ c y t, s = c :: (y ++ t) ∧ (c = '_' ∨ isLowercase c = true ∨ isUppercase c = true) ∧
    (∀ d ∈ y, isUppercase d = true ∨ isLowercase d = true ∨ d ∈ digit ∨ d = '_') ∧
    ∀ d ∈ t, d ∈ trails

end Readme
end Pemdas
