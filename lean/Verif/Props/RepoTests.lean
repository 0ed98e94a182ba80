import Verif.Props.Spellings
import Verif.Props.SessionFix
import Verif.Model.Lexicon
/-
The unit tests of the repository, run against the model. These are no properties; they check that
the model does what the code's authors saw the code do.
-/
namespace Pemdas

section
attribute [local instance] asciiTables asciiTables_lawful

/-- `token_positions` (lexer.rs:499-539). The first token ends one column late, as in the code. -/
example : (Lexer.items 2 (Lexer.new t!"\n'\\u005c' 'elem\n")).toOption =
    some [(.lit (.char '\\'), ⟨⟨2, 1, 1⟩, ⟨2, 10, 10⟩⟩),
      (.affix t!"elem" true, ⟨⟨2, 10, 10⟩, ⟨2, 15, 15⟩⟩)] := by decide +kernel

/-- `test_fixity` (parser.rs:683-701). -/
example : (parse t!"infixr 5 :, +").value? =
    some ⟨[.infix_], [⟨[.standard t!":", .standard t!"+"], ⟨5, .right⟩⟩], []⟩ := by decide +kernel

/-- `test_lambda` (parser.rs:704-725). -/
example : (parseExpr t!"\\x y z -> x y z").value? =
    some (.lam (.var t!"x") (.lam (.var t!"y") (.lam (.var t!"z")
      (.app (.app (.var (.lower t!"x")) (.var (.lower t!"y"))) (.var (.lower t!"z")))))) := by
  decide +kernel

example : (parseExpr t!"\\x (x, y) -> (x, y)").value? =
    some (.lam (.var t!"x") (.lam (.tup [.var t!"x", .var t!"y"])
      (.tup [.var (.lower t!"x"), .var (.lower t!"y")]))) := by decide +kernel

/-- `test_tuple` (parser.rs:728-735). -/
example : (parseExpr t!"()").value? = some Expr.unit ∧
    (parseExpr t!"(a, b)").value? = some (.tup [.var (.lower t!"a"), .var (.lower t!"b")]) := by
  decide +kernel

/-- `test_app` (parser.rs:738-763). The last case stops at the second line. -/
example : (parseExpr t!"f x").value? = some (.app (.var (.lower t!"f")) (.var (.lower t!"x"))) ∧
    (parseExpr t!"f x (y, z)").value? =
      some (.app (.app (.var (.lower t!"f")) (.var (.lower t!"x")))
        (.tup [.var (.lower t!"y"), .var (.lower t!"z")])) ∧
    (parseExpr t!" f x\ny").value? =
      some (.app (.var (.lower t!"f")) (.var (.lower t!"x"))) := by decide +kernel

/-- Parses and resolves a source with a new resolver: the resolved expressions and the errors. -/
def exResolve (src : Text) : Option (List Expr × List AssocError) :=
  (parse src).value?.bind fun ast => (Resolver.resolveAst Resolver.new ast).toOption.map
    fun x => (x.2.1.exprs, x.2.2)

def exVar (s : Text) : Expr := .var (.lower s)

def exBin (op : Text) (l r : Expr) : Expr := .bin l (.standard op) r

/-- `default_cons_fixity_is_right_assoc` (fixity.rs:976-996). -/
example : exResolve t!"\ninfixr 5 :\na:b:c:d:[]\n" =
    some ([exBin t!":" (exVar t!"a") (exBin t!":" (exVar t!"b") (exBin t!":" (exVar t!"c")
      (exBin t!":" (exVar t!"d") (.list []))))], []) := by decide +kernel

/-- `arithmetic_fixities` (fixity.rs:999-1019). -/
example : exResolve t!"\ninfixl 6 +, -\ninfixl 7 *, /\ninfixr 8 ^\na + b * c - d ^ e\n" =
    some ([exBin t!"-" (exBin t!"+" (exVar t!"a") (exBin t!"*" (exVar t!"b") (exVar t!"c")))
      (exBin t!"^" (exVar t!"d") (exVar t!"e"))], []) := by decide +kernel

/-- `local_fixities_stay_in_scope` (fixity.rs:1022-1052). -/
example : exResolve t!"\ninfixl 6 +, -\nlet infixr 6 + in a + b + c + d\na + b + c + d\n" =
    some ([.let_ ⟨[.standard t!"+"], ⟨6, .right⟩⟩
        (exBin t!"+" (exVar t!"a") (exBin t!"+" (exVar t!"b")
          (exBin t!"+" (exVar t!"c") (exVar t!"d")))),
      exBin t!"+" (exBin t!"+" (exBin t!"+" (exVar t!"a") (exVar t!"b")) (exVar t!"c"))
        (exVar t!"d")], []) := by decide +kernel

/-- The example at the beginning of README.md. -/
example : exResolve t!"infixl 6 +, -\ninfixl 7 *, /\ninfixr 8 ^\na + b * c ^ e - f / g" =
    some ([exBin t!"-" (exBin t!"+" (exVar t!"a") (exBin t!"*" (exVar t!"b")
        (exBin t!"^" (exVar t!"c") (exVar t!"e"))))
      (exBin t!"/" (exVar t!"f") (exVar t!"g"))], []) := by decide +kernel

/-- README.md: `let infixl 4 + in let infixr 6 ? in a + b ? c + d`. -/
example : exResolve t!"let infixl 4 + in let infixr 6 ? in a + b ? c + d" =
    some ([.let_ ⟨[.standard t!"+"], ⟨4, .left⟩⟩ (.let_ ⟨[.standard t!"?"], ⟨6, .right⟩⟩
      (exBin t!"+" (exBin t!"+" (exVar t!"a") (exBin t!"?" (exVar t!"b") (exVar t!"c")))
        (exVar t!"d")))], []) := by decide +kernel

end

/-- `test_digits` (grapheme.rs:447-460). -/
example : (∀ i, i < 9 → numlen i = 1) ∧ (∀ i, i < 99 → 10 ≤ i → numlen i = 2) := by
  decide +kernel

/-- `test_predefined_predicates` (symbol.rs:153-166). -/
example : (Lexicon.predefined[Lexicon.constant t!"EMPTY"]? = some []) ∧
    (Lexicon.predefined[Lexicon.constant t!"UNDERSCORE"]? = some t!"_") ∧
    (Lexicon.predefined[Lexicon.constant t!"ARROW"]? = some t!"->") ∧
    (Lexicon.predefined[Lexicon.constant t!"PLUS"]? = some t!"+") := by decide +kernel

end Pemdas
