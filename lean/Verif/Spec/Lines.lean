import Verif.Spec.Placed
import Verif.Spec.LineEnds
import Verif.Model.Session
import Verif.Props.Ast
/-
Texts of several lines, each of which is a program by itself.
-/
namespace Pemdas

/-- A line of a source, its tokens with the columns at which they end, and the declarations that it is
read as when it stands alone. -/
structure SourceLine where
  text : Text
  toks : List CTok
  decls : List Decl

section
variable [CharTables]

/-- The line is what is said about it, and it ends with the end of its last token: neither in a character
given by its code nor in a promoted name of one character, which swallow the line end. -/
structure SourceLine.Fine (x : SourceLine) : Prop where
  lf : '\n' ∉ x.text
  cr : x.text.head? ≠ some '\r'
  code : NoCodeEnd x.text
  short : NoShortEnd (x.toks.map (·.1))
  lexes : Lexes x.text x.toks
  reads : ∃ l, parse x.text = .ok (Ast.ofDecls x.decls) l

end

/-- `y` begins with nothing that could be an argument of something in the line `x` before it, judged by
the columns at which their first tokens end; or `x` ends in a fixity declaration or a semicolon. -/
def SourceLine.Apart (x y : SourceLine) : Prop :=
  (∃ e, x.decls.getLast? = some (.expr e)) → (x.toks.map (·.1)).getLast? ≠ some .semi →
    ∀ t k, y.toks.head? = some (t, k) → t.startsArg = true → k ≤ firstCol x.toks

/-- Every line is apart from the one before it, lines without tokens not counted. -/
def AllApart (ls : List SourceLine) : Prop :=
  ∀ a x b y c, ls = a ++ x :: b ++ y :: c → (∀ z ∈ b, z.toks = []) → x.Apart y

/-- The texts are accepted one after the other by `ReplSession::feed_input`, and the session ends up
as `s'`. -/
inductive FedAll [CharTables] : Session → List Text → Session → Prop
  | nil {s} : FedAll s [] s
  | cons {s s' s'' l ls ast} : Session.feedInput s l = .ok (.ok ast, s') → FedAll s' ls s'' →
      FedAll s (l :: ls) s''

end Pemdas
