import Verif.Spec.LexGrammar
/-
Line ends hidden in string literals.
-/
namespace Pemdas

/-- No backslash in the body of a string literal escapes a line end. -/
def NoLineEscape (w : Text) : Prop := ∀ a b, w = a ++ '\\' :: '\n' :: b → ¬ ∃ s, StrBody a s

end Pemdas
