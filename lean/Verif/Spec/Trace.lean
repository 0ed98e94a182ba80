import Verif.Spec.Desk
/-
Specification of what has been done when a line makes the program panic. An input crashes the parser,
before anything is said about it, or it cannot be parsed and the message about it cannot be written to
its end. Files loaded before the one that crashes have been loaded.
-/
namespace Pemdas

section
variable [CharTables]

/-- What is written of a message about an empty character literal, before the program panics. -/
inductive Begun : ParseError → Text → Prop where
  | unexpected {a b loc} : Begun (.unexpected (.error (.emptyChar a b)) loc) t!"unexpected token `"
  | expected {t tt a b loc} : t.text = .ok tt → Begun (.expected t loc (.error (.emptyChar a b)))
      (t!"expected `" ++ tt ++ t!"`, but found `")

/-- `Snaps src fx p`: a typed input panics with `p` after `fx`. -/
inductive Snaps (src : Text) : List Effect → Panic → Prop where
  | silently {p} : parse src = .panic p → Snaps src [] p
  | speaking {e lx m} : parse src = .err e lx → Begun e m →
      Snaps src [.err (painted t!"0" (painted t!"31" t!"[Error]:" ++ t!" ") ++ m)] .emptyCharTodo

/-- The same for a file named by an argument of `:load`. -/
inductive SnapsFile (w : World) (word : Text) : List Effect → Panic → Prop where
  | silently {p content t q} : Opens word p → w.readFile p = .ok content → FileText p content t →
      parse t = .panic q → SnapsFile w word [.read p] q
  | speaking {p content t e lx m} : Opens word p → w.readFile p = .ok content → FileText p content t →
      parse t = .err e lx → Begun e m →
      SnapsFile w word [.read p, .out (painted t!"31" t!"[Error]:" ++ t!"  " ++
        painted t!"34" (t!"(" ++ p ++ t!":" ++ decText e.loc.line ++ t!":" ++ decText e.loc.col ++
          t!") ") ++ m)] .emptyCharTodo

/-- `Falls w d line fx p`: a line typed at the desk `d` panics with `p` after `fx`. -/
inductive Falls (w : World) (d : Desk) (line : Text) : List Effect → Panic → Prop where
  | ends {body fx p} : Ends line body → Snaps (d.pending ++ body) fx p → Falls w d line fx p
  | block {body fx p} : Block line body → Snaps (d.pending ++ body) fx p → Falls w d line fx p
  | files {o before word after fx l fx' p} : d.pending = [] → SaysWith line t!":load" o →
      o ∉ [t!"--math", t!"--prelude"] → Words o (before ++ word :: after) →
      RepliesFiles w d.ledger before fx l → SnapsFile w word fx' p →
      Falls w d line (fx ++ fx') p

end
end Pemdas
