import Verif.Spec.LineEnds
import Verif.Spec.Rename
/-
Specification vocabulary: texts of which only the names and literals differ, and texts of which only
the columns differ.
-/
namespace Pemdas

/-- Which names and which literals are written for which. Names need not be swapped consistently: one
name may correspond to several. -/
structure Swap where
  name : Text → Text → Prop
  lit : Literal → Literal → Prop

/-- Two lists of the same length, the members of which correspond one by one. -/
def OneByOne {α β : Type} (R : α → β → Prop) (xs : List α) (ys : List β) : Prop :=
  ∃ ps : List (α × β), ps.map (·.1) = xs ∧ ps.map (·.2) = ys ∧ ∀ p ∈ ps, R p.1 p.2

namespace Swap

/-- Integers, which may be precedences, and the two operators that are tokens of their own are left
as they are. -/
structure Sound (ρ : Swap) : Prop where
  dash : ρ.name t!"-" t!"-"
  at_ : ρ.name t!"@" t!"@"
  int : ∀ l l', ρ.lit l l' → ∀ n, l = .int n ↔ l' = .int n

/-- Tokens that correspond: names of the same class, literals, the same token otherwise. -/
inductive tok (ρ : Swap) : Token → Token → Prop
  | upper {s s'} : ρ.name s s' → ρ.tok (.upper s) (.upper s')
  | lower {s s'} : ρ.name s s' → ρ.tok (.lower s) (.lower s')
  | affix {s s'} (b) : ρ.name s s' → ρ.tok (.affix s b) (.affix s' b)
  | lit {l l'} : ρ.lit l l' → ρ.tok (.lit l) (.lit l')
  | same {t} : (∀ s, t ≠ .upper s) → (∀ s, t ≠ .lower s) → (∀ s b, t ≠ .affix s b) →
      (∀ l, t ≠ .lit l) → ρ.tok t t

/-- Operators that correspond. -/
inductive op (ρ : Swap) : Infix → Infix → Prop
  | standard {s s'} : ρ.name s s' → ρ.op (.standard s) (.standard s')
  | promoted {s s'} : ρ.name s s' → ρ.op (.promoted s) (.promoted s')

/-- Declarations that correspond: the fixity is the same. -/
def decl (ρ : Swap) (d d' : InfixDecl) : Prop :=
  d.fixity = d'.fixity ∧ OneByOne ρ.op d.infixes d'.infixes

/-- Identifiers that correspond. -/
inductive ident (ρ : Swap) : Ident → Ident → Prop
  | nil : ρ.ident .nil .nil
  | commas (k) : ρ.ident (.commas k) (.commas k)
  | upper {s s'} : ρ.name s s' → ρ.ident (.upper s) (.upper s')
  | lower {s s'} : ρ.name s s' → ρ.ident (.lower s) (.lower s')
  | infix_ {s s'} : ρ.name s s' → ρ.ident (.infix_ s) (.infix_ s')

/-- Patterns that correspond. -/
inductive pat (ρ : Swap) : Pat → Pat → Prop
  | wild : ρ.pat .wild .wild
  | lit {l l'} : ρ.lit l l' → ρ.pat (.lit l) (.lit l')
  | var {s s'} : ρ.name s s' → ρ.pat (.var s) (.var s')
  | neg {p p'} : ρ.pat p p' → ρ.pat (.neg p) (.neg p')
  | con {s s'} {ps : List (Pat × Pat)} : ρ.name s s' → (∀ x ∈ ps, ρ.pat x.1 x.2) →
      ρ.pat (.con s (ps.map (·.1))) (.con s' (ps.map (·.2)))
  | tup {ps : List (Pat × Pat)} : (∀ x ∈ ps, ρ.pat x.1 x.2) →
      ρ.pat (.tup (ps.map (·.1))) (.tup (ps.map (·.2)))
  | arr {ps : List (Pat × Pat)} : (∀ x ∈ ps, ρ.pat x.1 x.2) →
      ρ.pat (.arr (ps.map (·.1))) (.arr (ps.map (·.2)))
  | lnk {p p' q q'} : ρ.pat p p' → ρ.pat q q' → ρ.pat (.lnk p q) (.lnk p' q')
  | as_ {s s' p p'} : ρ.name s s' → ρ.pat p p' → ρ.pat (.as_ s p) (.as_ s' p')

/-- Expressions that correspond. -/
inductive expr (ρ : Swap) : Expr → Expr → Prop
  | lit {l l'} : ρ.lit l l' → ρ.expr (.lit l) (.lit l')
  | var {i i'} : ρ.ident i i' → ρ.expr (.var i) (.var i')
  | app {f f' x x'} : ρ.expr f f' → ρ.expr x x' → ρ.expr (.app f x) (.app f' x')
  | bin {l l' o o' r r'} : ρ.expr l l' → ρ.op o o' → ρ.expr r r' →
      ρ.expr (.bin l o r) (.bin l' o' r')
  | lam {p p' e e'} : ρ.pat p p' → ρ.expr e e' → ρ.expr (.lam p e) (.lam p' e')
  | grp {e e'} : ρ.expr e e' → ρ.expr (.grp e) (.grp e')
  | neg {e e'} : ρ.expr e e' → ρ.expr (.neg e) (.neg e')
  | tup {es : List (Expr × Expr)} : (∀ x ∈ es, ρ.expr x.1 x.2) →
      ρ.expr (.tup (es.map (·.1))) (.tup (es.map (·.2)))
  | list {es : List (Expr × Expr)} : (∀ x ∈ es, ρ.expr x.1 x.2) →
      ρ.expr (.list (es.map (·.1))) (.list (es.map (·.2)))
  | let_ {d d' e e'} : ρ.decl d d' → ρ.expr e e' → ρ.expr (.let_ d e) (.let_ d' e')

/-- Programs that correspond. -/
structure ast (ρ : Swap) (a a' : Ast) : Prop where
  kinds : a.kinds = a'.kinds
  infxs : OneByOne ρ.decl a.infxs a'.infxs
  exprs : OneByOne ρ.expr a.exprs a'.exprs

end Swap

/-- Two lists of tokens with columns, in which the columns are ordered alike: one token ends further
to the right than another exactly if the corresponding tokens do. -/
def OrderedAlike (cs cs' : List CTok) : Prop :=
  ∀ (i j : Nat) (x y x' y' : CTok), cs[i]? = some x → cs[j]? = some y → cs'[i]? = some x' →
    cs'[j]? = some y' → (x.2 < y.2 ↔ x'.2 < y'.2)

/-- Every name and every literal for every other, except that integers are left as they are. -/
def Swap.any : Swap where
  name _ _ := True
  lit l l' := ∀ n, l = .int n ↔ l' = .int n

mutual
/-- A pattern with other names and literals. -/
def Pat.renamed (g : Text → Text) (lit : Literal → Literal) : Pat → Pat
  | .wild => .wild
  | .lit l => .lit (lit l)
  | .var s => .var (g s)
  | .neg p => .neg (p.renamed g lit)
  | .con s ps => .con (g s) (Pat.renamedAll g lit ps)
  | .tup ps => .tup (Pat.renamedAll g lit ps)
  | .arr ps => .arr (Pat.renamedAll g lit ps)
  | .lnk p q => .lnk (p.renamed g lit) (q.renamed g lit)
  | .as_ s p => .as_ (g s) (p.renamed g lit)
/-- Patterns with other names and literals. -/
def Pat.renamedAll (g : Text → Text) (lit : Literal → Literal) : List Pat → List Pat
  | [] => []
  | p :: ps => p.renamed g lit :: Pat.renamedAll g lit ps
end

/-- Every name is replaced by another, and every literal. -/
def Renaming.names (g : Text → Text) (lit : Literal → Literal) : Renaming where
  op
    | .standard s => .standard (g s)
    | .promoted s => .promoted (g s)
  lit := lit
  var
    | .nil => .nil
    | .commas k => .commas k
    | .upper s => .upper (g s)
    | .lower s => .lower (g s)
    | .infix_ s => .infix_ (g s)
  pat := Pat.renamed g lit

/-- A token with another name or literal. -/
def Token.renamed (g : Text → Text) (lit : Literal → Literal) : Token → Token
  | .upper s => .upper (g s)
  | .lower s => .lower (g s)
  | .affix s b => .affix (g s) b
  | .lit l => .lit (lit l)
  | t => t

/-- The operators that are tokens of their own keep their names, and integers stay the integers they
are. -/
structure KeepsFixed (g : Text → Text) (lit : Literal → Literal) : Prop where
  dash : g t!"-" = t!"-"
  at_ : g t!"@" = t!"@"
  int : ∀ l n, lit l = .int n ↔ l = .int n

/-- A line, possibly empty, that consists of whole tokens, whitespace and comments. -/
structure LineOfTokens [CharTables] (l : Text) : Prop where
  lf : '\n' ∉ l
  cr : l.head? ≠ some '\r'
  whole : ∃ ts, Tokenizes l ts

end Pemdas
