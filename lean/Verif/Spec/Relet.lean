import Verif.Spec.Resolve
/-
Specification: `let`s in another order, and superfluous ones.
-/
namespace Pemdas

/-- The two declarations name no operator in common. -/
def InfixDecl.Disjoint (d d' : InfixDecl) : Prop :=
  ∀ o, o ∈ d.infixes.map Infix.symbol → o ∉ d'.infixes.map Infix.symbol

/-- All operators that the first declaration names are named by the second, too. -/
def InfixDecl.Within (d d' : InfixDecl) : Prop :=
  ∀ o, o ∈ d.infixes.map Infix.symbol → o ∈ d'.infixes.map Infix.symbol

/-- The declarations give the same operators the same fixity. -/
def InfixDecl.Same (d d' : InfixDecl) : Prop := d.fixity = d'.fixity ∧ d.Within d' ∧ d'.Within d

mutual
/-- The second expression is the first one with some neighbouring `let`s exchanged that name different operators, some
`let`s removed or added directly around a `let` that names all of their operators, and some operators of one `let`
exchanged. -/
inductive Expr.Relet : Expr → Expr → Prop
  | lit {l} : Expr.Relet (.lit l) (.lit l)
  | var {i} : Expr.Relet (.var i) (.var i)
  | app {f f' x x'} : Expr.Relet f f' → Expr.Relet x x' → Expr.Relet (.app f x) (.app f' x')
  | bin {l l' op r r'} : Expr.Relet l l' → Expr.Relet r r' → Expr.Relet (.bin l op r) (.bin l' op r')
  | lam {p b b'} : Expr.Relet b b' → Expr.Relet (.lam p b) (.lam p b')
  | grp {b b'} : Expr.Relet b b' → Expr.Relet (.grp b) (.grp b')
  | neg {b b'} : Expr.Relet b b' → Expr.Relet (.neg b) (.neg b')
  | tup {xs xs'} : AllRelet xs xs' → Expr.Relet (.tup xs) (.tup xs')
  | list {xs xs'} : AllRelet xs xs' → Expr.Relet (.list xs) (.list xs')
  | same {d d' b b'} : d.Same d' → Expr.Relet b b' → Expr.Relet (.let_ d b) (.let_ d' b')
  | swap {d₁ d₂ b b'} : d₁.Disjoint d₂ → Expr.Relet b b' → Expr.Relet (.let_ d₁ (.let_ d₂ b)) (.let_ d₂ (.let_ d₁ b'))
  | drop {d₁ d₂ b b'} : d₁.Within d₂ → Expr.Relet b b' → Expr.Relet (.let_ d₁ (.let_ d₂ b)) (.let_ d₂ b')
  | add {d₁ d₂ b b'} : d₁.Within d₂ → Expr.Relet b b' → Expr.Relet (.let_ d₂ b) (.let_ d₁ (.let_ d₂ b'))
/-- The same for expressions one by one. -/
inductive AllRelet : List Expr → List Expr → Prop
  | nil : AllRelet [] []
  | cons {x x' xs xs'} : x.Relet x' → AllRelet xs xs' → AllRelet (x :: xs) (x' :: xs')
end

end Pemdas
