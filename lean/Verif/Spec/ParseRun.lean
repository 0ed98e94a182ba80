import Verif.Model.Lexer
/-
How the parser uses the lexer: it peeks, and it bumps tokens it has seen.
-/
namespace Pemdas
variable [CharTables]

/-- From state `l`, peeking and bumping tokens that are not errors leads to `l'`, and the tokens
bumped on the way are `ts`. -/
inductive Eats (l : Lexer) : List Token → Lexer → Prop
  | refl : Eats l [] l
  | peek {ts m m' r} : Eats l ts m → m.peek = .ok (r, m') → Eats l ts m'
  | bump {ts m t} : Eats l ts m → m.curr = some t → (∀ e, t ≠ .error e) →
      Eats l (ts ++ [t]) { m with curr := none }

end Pemdas
