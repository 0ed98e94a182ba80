import Verif.Spec.Placed
/-
Specification vocabulary: texts with line ends of different kinds.
-/
namespace Pemdas

/-- Lines, each with the given line end, and a last line without. -/
def withEol (eol : Text) (ls : List Text) (last : Text) : Text := (ls.map (· ++ eol)).flatten ++ last

/-- A line that is not empty and consists of whole tokens, whitespace and comments; it ends
neither in a character given by its code nor in a promoted name of one character. -/
structure WholeLine [CharTables] (l : Text) : Prop where
  ne : l ≠ []
  lf : '\n' ∉ l
  cr : '\r' ∉ l
  code : NoCodeEnd l
  whole : ∃ ts, Tokenizes l ts ∧ NoShortEnd ts

end Pemdas
