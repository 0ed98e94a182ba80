import Verif.Spec.Session
/-
Sessions that differ only in what is for show.
-/
namespace Pemdas

/-- The sessions agree but for the prompt and the order of the declarations. -/
structure Alike (s s' : Session) : Prop where
  buffer : s.buffer = s'.buffer
  historyPath : s.historyPath = s'.historyPath
  errors : s.resolver.errors = s'.resolver.errors
  /-- No operator is declared twice. -/
  unique : s.resolver.fixities.Pairwise fun a b => a.1.symbol ≠ b.1.symbol
  fixities : s.resolver.fixities.Perm s'.resolver.fixities

/-- The sessions agree but for the prompt. -/
structure SameButPrompt (s s' : Session) : Prop where
  buffer : s.buffer = s'.buffer
  historyPath : s.historyPath = s'.historyPath
  resolver : s.resolver = s'.resolver

/-- The line asks for the fixities of all operators. -/
def AsksAll (line : Text) : Prop := ∃ c ∈ [t!":info", t!":i", t!":fixities"], Says line c

/-- The outcomes agree but for the sessions, which are related: the same crash, or the same effects
and the same decision to go on. -/
inductive SameOutcome (S : Session → Session → Prop) : Session.Cmd → Session.Cmd → Prop where
  | ok {b s s' fx} : S s s' → SameOutcome S (.ok (b, s, fx)) (.ok (b, s', fx))
  | crash {e} : SameOutcome S (.error e) (.error e)

section
variable [CharTables]

/-- The line is an input of its own, of fixity declarations only: these. -/
def DeclLine (line : Text) (ds : List InfixDecl) : Prop :=
  ∃ body ast st, Ends line body ∧ parse body = .ok ast st ∧ ast.exprs = [] ∧ ast.infxs = ds

end
end Pemdas
