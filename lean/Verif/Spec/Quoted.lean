import Verif.Spec.LexGrammar
/-
Quoted texts, as Rust's `{:?}` writes them.
-/
namespace Pemdas

/-- The characters that are written as a backslash and one character, and that character. -/
def shortEscapes : List (Char × Char) :=
  [('\x00', '0'), ('\t', 't'), ('\r', 'r'), ('\n', 'n'), ('\\', '\\'), ('"', '"'), ('\'', '\'')]

/-- `Quoted q w s`: between two quotes `q`, `w` stands for `s`. -/
inductive Quoted (q : Char) : Text → Text → Prop
  | nil : Quoted q [] []
  | char {c : Char} {w s : Text} : c ≠ q → c ∉ t!"\\\n\r\t\x00" → Quoted q w s →
      Quoted q (c :: w) (c :: s)
  | short {c k : Char} {w s : Text} : (c, k) ∈ shortEscapes → (c = '"' ∨ c = '\'' → c = q) →
      Quoted q w s → Quoted q ('\\' :: k :: w) (c :: s)
  | long {c : Char} {ds w s : Text} : ds ≠ [] → ds.all isHexDigit = true → hexValue ds = c.toNat →
      Quoted q w s → Quoted q (t!"\\u{" ++ (ds ++ '}' :: w)) (c :: s)

end Pemdas
